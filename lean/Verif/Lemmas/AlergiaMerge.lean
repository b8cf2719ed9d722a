import Verif.Lemmas.AlergiaStep

/-!
`merge` and the red/blue loop keep the invariant.
-/

namespace Jajapy.Alergia

open Spec.Alergia Heap

variable {h : Heap} {R A : Finset ℕ} {lo N : ℕ}

/-! ### Heights -/

theorem WF.height_card (W : WF h R A lo) (m : ℕ) : ∀ x ∈ A, Up h R x m →
    ∃ S : Finset ℕ, S ⊆ A \ R ∧ S.card = m ∧ ∀ y ∈ S, ∃ m' ≤ m, Up h R y m' := by
  induction m with
  | zero => intro x _ _; exact ⟨∅, by simp, rfl, by simp⟩
  | succ m ih =>
    intro x hx u
    cases u with
    | @step _ p _ hr hp u =>
      obtain ⟨p', hpA, hp', _⟩ := W.parIn x hx hr
      rw [hp] at hp'
      injection hp' with e
      subst e
      obtain ⟨S, hS, hc, hu⟩ := ih p hpA u
      have hn : x ∉ S := by
        intro hxS
        obtain ⟨m', hm', u'⟩ := hu x hxS
        have := u'.unique (Up.step hr hp u)
        omega
      refine ⟨insert x S, ?_, by rw [Finset.card_insert_of_notMem hn, hc], ?_⟩
      · intro y hy
        rcases Finset.mem_insert.1 hy with rfl | hy
        · exact Finset.mem_sdiff.2 ⟨hx, hr⟩
        · exact hS hy
      · intro y hy
        rcases Finset.mem_insert.1 hy with rfl | hy
        · exact ⟨m + 1, le_refl _, .step hr hp u⟩
        · obtain ⟨m', hm', u'⟩ := hu y hy
          exact ⟨m', by omega, u'⟩

open Classical in
/-- The depth that remains below a node. -/
noncomputable def depth (h : Heap) (R A : Finset ℕ) (x : ℕ) : ℕ :=
  A.card - (if e : ∃ m, Up h R x m then e.choose else 0)

theorem WF.depth_eq (W : WF h R A lo) {x m : ℕ} (hx : x ∈ A) (u : Up h R x m) : depth h R A x + m = A.card := by
  have e : ∃ m, Up h R x m := ⟨m, u⟩
  unfold depth
  rw [dif_pos e, e.choose_spec.unique u]
  obtain ⟨S, hS, hc, _⟩ := W.height_card m x hx u
  have : S.card ≤ A.card := Finset.card_le_card (hS.trans Finset.sdiff_subset)
  omega

theorem WF.depth_kid (W : WF h R A lo) {x k : ℕ} (hx : x ∈ A) (hk : h.Kid x k) (hr : k ∉ R) : depth h R A k < depth h R A x := by
  have hkA := W.closed x hx k hk
  obtain ⟨m, u⟩ := W.up x hx
  have h1 := W.depth_eq hx u
  have h2 := W.depth_eq hkA (.step hr (W.par k hkA hr x hx hk) u)
  omega

/-! ### Merging -/

/-- The heap of `merge` before the fold. -/
def joined (h : Heap) (r b p : ℕ) : Heap := (h.setCount r (h.count r + h.count b)).replaceKid p b r

variable {r b p : ℕ}

theorem joined_label (x : ℕ) : (joined h r b p).label x = h.label x := by simp [joined]
theorem joined_parent (x : ℕ) : (joined h r b p).parent x = h.parent x := by simp [joined]
theorem joined_count (x : ℕ) : (joined h r b p).count x = h.count x + if x = r then h.count b else 0 := by
  simp only [joined, replaceKid_count, setCount_count]
  split_ifs with e
  · rw [e]
  · rfl
theorem joined_kids (x : ℕ) : (joined h r b p).kids x = if x = p then replaceFirst b r (h.kids p) else h.kids x := by
  simp only [joined, replaceKid_kids, setCount_kids]
theorem joined_node {x : ℕ} (hx : x ≠ p) (hx' : x ≠ r) : (joined h r b p).node x = h.node x := by
  rw [joined, replaceKid_node _ _ _ _ _ hx, setCount_node _ _ _ _ hx']
theorem joined_leaving (x : ℕ) : leaving (joined h r b p) x = leaving h x := by
  unfold leaving
  rw [joined_kids]
  split_ifs with e
  · rw [replaceFirst_snd, e]
  · rfl
theorem joined_kid (hn : h.Det p) (hb : h.Kid p b) (x k : ℕ) :
    (joined h r b p).Kid x k ↔ (h.Kid x k ∧ ¬ (x = p ∧ k = b)) ∨ (x = p ∧ k = r) := by
  unfold Kid
  rw [joined_kids]
  by_cases e : x = p
  · subst e
    rw [if_pos rfl, replaceFirst_fst _ _ _ hn.nodup, List.map_map]
    simp only [List.mem_map, Function.comp_apply, true_and]
    constructor
    · rintro ⟨q, hq, e⟩
      split_ifs at e with hqb
      · exact .inr e.symm
      · exact .inl ⟨⟨q, hq, e⟩, fun e' => hqb (e.trans e')⟩
    · rintro (⟨⟨q, hq, e⟩, hne⟩ | e)
      · exact ⟨q, hq, by rw [if_neg (fun e' => hne (e.symm.trans e')), e]⟩
      · obtain ⟨q, hq, e'⟩ := List.mem_map.1 hb
        exact ⟨q, hq, by rw [if_pos e', e]⟩
  · rw [if_neg e]; simp [e]
theorem joined_det (hn : h.Det p) (hl : h.label r = h.label b) {x : ℕ} (hx : h.Det x) : (joined h r b p).Det x := by
  unfold Det at *
  simp only [joined_label]
  rw [joined_kids]
  split_ifs with e
  · subst e
    rw [replaceFirst_fst _ _ _ (Det.nodup hn), List.map_map]
    have : List.map ((fun q : ℕ × ℕ => h.label q.1) ∘ fun q => (if q.1 = b then r else q.1, q.2)) (h.kids x) =
        (h.kids x).map (fun q => h.label q.1) := by
      apply List.map_congr_left
      intro q _
      simp only [Function.comp_apply]
      split_ifs with e
      · rw [hl, e]
      · rfl
    rw [this]; exact hx
  · exact hx

theorem joined_edge (hn : h.Det p) (hb : h.Kid p b) (hr : ¬ h.Kid p r) (y x : ℕ) :
    edge (joined h r b p) y x = if y = p ∧ x = r then edge h p b else if y = p ∧ x = b ∧ b ≠ r then 0 else edge h y x := by
  by_cases hk : (joined h r b p).Kid y x
  · have hnd : (((joined h r b p).kids y).map (·.1)).Nodup ∨ y ≠ p := by
      by_cases e : y = p
      · left
        subst e
        rw [joined_kids, if_pos rfl, replaceFirst_fst _ _ _ hn.nodup, List.map_map]
        have := hn.nodup
        have hr' : ∀ q ∈ h.kids y, q.1 ≠ r := fun q hq e => hr (e ▸ kid_of_mem hq)
        rw [List.nodup_map_iff_inj_on (List.Nodup.of_map _ this)]
        intro q hq q' hq' e
        simp only [Function.comp_apply] at e
        split_ifs at e with e1 e2 e2
        · exact List.inj_on_of_nodup_map this hq hq' (e1.trans e2.symm)
        · exact absurd e.symm (hr' q' hq')
        · exact absurd e (hr' q hq)
        · exact List.inj_on_of_nodup_map this hq hq' e
      · exact .inr e
    by_cases e : y = p
    · subst e
      have hnd := hnd.resolve_right (by simp)
      rcases (joined_kid hn hb _ _).1 hk with ⟨hk', hne⟩ | ⟨_, rfl⟩
      · have hxr : x ≠ r := fun e => hr (e ▸ hk')
        have hxb : x ≠ b := fun e => hne ⟨rfl, e⟩
        rw [if_neg (fun e => hxr e.2), if_neg (fun e => hxb e.2.1)]
        apply edge_eq hnd
        rw [joined_kids, if_pos rfl, replaceFirst_fst _ _ _ hn.nodup]
        exact List.mem_map.2 ⟨_, edge_kid hn hk', by simp [hxb]⟩
      · rw [if_pos ⟨rfl, rfl⟩]
        apply edge_eq hnd
        rw [joined_kids, if_pos rfl, replaceFirst_fst _ _ _ hn.nodup]
        exact List.mem_map.2 ⟨_, edge_kid hn hb, by simp⟩
    · rw [if_neg (fun e' => e e'.1), if_neg (fun e' => e e'.1)]
      apply edge_congr
      rw [joined_kids, if_neg e]
  · rw [edge_zero hk]
    have hk' := fun e => hk ((joined_kid hn hb y x).2 e)
    by_cases e : y = p ∧ x = r
    · exact absurd (.inr e) hk'
    · rw [if_neg e]
      split_ifs with e2
      · rfl
      · symm
        apply edge_zero
        intro hkk
        apply hk'
        refine .inl ⟨hkk, fun e3 => e2 ⟨e3.1, e3.2, fun e4 => e ⟨e3.1, e3.2.trans e4⟩⟩⟩

open Classical in
/-- **A merge keeps the invariant**, removes the blue node, and loses no word. -/
theorem WF.merge (W : WF h R A lo) (F : Flow h A N (fun _ => 0)) (hb : b ∈ A) (hbR : b ∉ R) (hp : p ∈ R) (hk : h.Kid p b)
    (hr : r ∈ R) (hl : h.label r = h.label b) {f : ℕ} (hf : A.card < f) :
    ∃ h' A', Alergia.merge f h r b = some h' ∧ WF h' R A' lo ∧ Flow h' A' N (fun _ => 0) ∧ A' ⊆ A.erase b ∧
      (∀ x, h'.label x = h.label x) ∧ h'.size = h.size ∧
      (∀ x ∈ R, ∀ w, (follow h x w).isSome → (follow h' x w).isSome) ∧ ∀ x ∈ R, ∀ k ∈ R, h.Kid x k → h'.Kid x k := by
  obtain ⟨f, rfl⟩ : ∃ f', f = f' + 1 := ⟨f - 1, by omega⟩
  have hpA := W.sub hp
  have hrA := W.sub hr
  have hpar := W.par b hb hbR p hpA hk
  have hdp := W.det p hpA
  -- the tree of the blue node
  have hbelA : ∀ x, Below h b x → x ∈ A ∧ x ∉ R := by
    intro x hx
    induction hx with
    | refl => exact ⟨hb, hbR⟩
    | step _ k ih => exact ⟨W.closed _ ih.1 _ k, W.noRed _ ih.1 ih.2 _ k⟩
  have hnob : ∀ x, Below h b x → ¬ h.Kid x b := by
    intro x hx hk'
    have := W.par b hb hbR x (hbelA x hx).1 hk'
    rw [hpar] at this
    injection this with e
    exact (hbelA x hx).2 (e ▸ hp)
  have hA0 : ∀ x ∈ A, ¬ Below h b x → ∀ k, h.Kid x k → Below h b k → x = p ∧ k = b := by
    intro x hx hnb k hk' hbk
    have h1 := W.par k (hbelA k hbk).1 (hbelA k hbk).2 x hx hk'
    cases hbk with
    | refl =>
      rw [hpar] at h1
      injection h1 with e
      exact ⟨e.symm, rfl⟩
    | @step y _ hy hky =>
      have h2 := W.par k (W.closed _ (hbelA y hy).1 _ hky) (W.noRed _ (hbelA y hy).1 (hbelA y hy).2 _ hky) y (hbelA y hy).1 hky
      rw [h1] at h2
      injection h2 with e
      exact absurd (e ▸ hy) hnb
  have hnbr : ∀ x ∈ R, ¬ Below h b x := fun x hx hbx => (hbelA x hbx).2 hx
  have hrb : r ≠ b := fun e => hbR (e ▸ hr)
  have hpb : p ≠ b := fun e => hbR (e ▸ hp)
  have hkr : ¬ h.Kid p r := fun hk' => hrb (hdp.inj hk' hk hl)
  have hkid := @joined_kid h r b p hdp hk
  have hedge := @joined_edge h r b p hdp hk hkr
  have hmem : ∀ x, x ∈ A.filter (fun x => ¬ Below h b x) ↔ x ∈ A ∧ ¬ Below h b x := fun x => Finset.mem_filter
  have hU : ∀ x, x ∈ (A.filter (Below h b)).erase b ↔ x ≠ b ∧ Below h b x := fun x => by
    rw [Finset.mem_erase, Finset.mem_filter]
    exact ⟨fun e => ⟨e.1, e.2.2⟩, fun e => ⟨e.1, (hbelA x e.2).1, e.2⟩⟩
  have hnodeU : ∀ x, Below h b x → (joined h r b p).node x = h.node x := fun x hx =>
    joined_node (fun e => hnbr p hp (e ▸ hx)) (fun e => hnbr r hr (e ▸ hx))
  have hkidU : ∀ x, Below h b x → ∀ k, (joined h r b p).Kid x k ↔ h.Kid x k := fun x hx k => kid_congr (hnodeU x hx) k
  have hflowb : ∀ x, Below h b x → ∀ q ∈ h.kids x, q.2 = h.count q.1 + leaving h q.1 := by
    intro x hx q hq
    have hkq := kid_of_mem hq
    have hqb : Below h b q.1 := .step hx hkq
    obtain ⟨hqA, hqR⟩ := hbelA _ hqb
    have hfl := F q.1 hqA
    have h0 : q.1 ≠ 0 := fun e => hqR (e ▸ W.root)
    rw [if_neg h0] at hfl
    unfold inflow at hfl
    rw [Finset.sum_eq_single x] at hfl
    · rw [edge_eq (W.det x (hbelA x hx).1).nodup (show (q.1, q.2) ∈ h.kids x from hq)] at hfl
      simpa using hfl
    · intro y hy hne
      apply edge_zero
      intro hky
      have h1 := W.par q.1 hqA hqR y hy hky
      have h2 := W.par q.1 hqA hqR x (hbelA x hx).1 hkq
      rw [h1] at h2
      injection h2 with e
      exact hne e
    · intro hn; exact absurd (hbelA x hx).1 hn
  have hedgeb : edge h p b = h.count b + leaving h b := by
    have hfl := F b hb
    have h0 : b ≠ 0 := fun e => hbR (e ▸ W.root)
    rw [if_neg h0] at hfl
    unfold inflow at hfl
    rw [Finset.sum_eq_single p] at hfl
    · simpa using hfl
    · intro y hy hne
      apply edge_zero
      intro hky
      have h1 := W.par b hb hbR y hy hky
      rw [hpar] at h1
      injection h1 with e
      exact hne e.symm
    · intro hn; exact absurd hpA hn
  have P : Pre (joined h r b p) R (A.filter (fun x => ¬ Below h b x)) ((A.filter (Below h b)).erase b) (depth h R A) lo N f
      (fun _ => 0) r (h.kids b) := by
    refine ⟨?_, ⟨W.root, fun x hx => (hmem x).2 ⟨W.sub hx, hnbr x hx⟩, ?_, ?_, ?_, ?_, ?_, ?_, ?_⟩, ⟨?_, ?_, ?_, ?_, ?_, ?_⟩, ?_,
      fun _ _ => rfl, (hmem r).2 ⟨hrA, hnbr r hr⟩, ?_, ?_, (W.det b hb).nodup, ?_, ?_, ?_⟩
    · intro x hx hxU; exact ((hmem x).1 hx).2 ((hU x).1 hxU).2
    · intro x hx k hk'
      obtain ⟨hxA, hxb⟩ := (hmem x).1 hx
      rcases (hkid x k).1 hk' with ⟨h1, h2⟩ | ⟨_, rfl⟩
      · exact (hmem k).2 ⟨W.closed x hxA k h1, fun hbk => h2 (hA0 x hxA hxb k h1 hbk)⟩
      · exact (hmem k).2 ⟨hrA, hnbr k hr⟩
    · intro x hx hxR k hk'
      rcases (hkid x k).1 hk' with ⟨h1, _⟩ | ⟨rfl, _⟩
      · exact W.noRed x ((hmem x).1 hx).1 hxR k h1
      · exact absurd hp hxR
    · intro x hx hxR y hy hk'
      rw [joined_parent]
      rcases (hkid y x).1 hk' with ⟨h1, _⟩ | ⟨_, rfl⟩
      · exact W.par x ((hmem x).1 hx).1 hxR y ((hmem y).1 hy).1 h1
      · exact absurd hr hxR
    · intro x hx hxR
      obtain ⟨hxA, hxb⟩ := (hmem x).1 hx
      obtain ⟨y, hyA, e1, e2⟩ := W.parIn x hxA hxR
      have hyb : ¬ Below h b y := fun hby => hxb (.step hby e2)
      refine ⟨y, (hmem y).2 ⟨hyA, hyb⟩, by rw [joined_parent]; exact e1, (hkid y x).2 (.inl ⟨e2, fun e => ?_⟩)⟩
      exact hxb (e.2 ▸ .refl)
    · intro x hx; exact joined_det hdp hl (W.det x ((hmem x).1 hx).1)
    · intro x hx
      obtain ⟨m, u⟩ := W.up x ((hmem x).1 hx).1
      refine ⟨m, ?_⟩
      clear * - u
      induction u with
      | red hr => exact .red hr
      | step hr hp _ ih => exact .step hr (by rw [joined_parent]; exact hp) ih
    · intro x hx q hq
      have hxA := ((hmem x).1 hx).1
      rw [joined_kids] at hq
      split_ifs at hq with e
      · rw [replaceFirst_fst _ _ _ hdp.nodup] at hq
        obtain ⟨q', hq', rfl⟩ := List.mem_map.1 hq
        exact W.edges p hpA q' hq'
      · exact W.edges x hxA q hq
    · intro x hx k hk'
      obtain ⟨_, hxb⟩ := (hU x).1 hx
      have hk'' := (hkidU x hxb k).1 hk'
      exact (hU k).2 ⟨fun e => hnob x hxb (e ▸ hk''), .step hxb hk''⟩
    · intro x hx k hk'
      obtain ⟨_, hxb⟩ := (hU x).1 hx
      have hk'' := (hkidU x hxb k).1 hk'
      rw [joined_parent]
      have := hbelA k (.step hxb hk'')
      exact W.par k this.1 this.2 x (hbelA x hxb).1 hk''
    · intro x hx; exact joined_det hdp hl (W.det x (hbelA x ((hU x).1 hx).2).1)
    · intro x hx q hq
      obtain ⟨_, hxb⟩ := (hU x).1 hx
      rw [kids_congr (hnodeU x hxb)] at hq
      have hqb : Below h b q.1 := .step hxb (kid_of_mem hq)
      rw [count_congr (hnodeU _ hqb), leaving_congr (kids_congr (hnodeU _ hqb))]
      exact hflowb x hxb q hq
    · intro x hx k hk'
      obtain ⟨_, hxb⟩ := (hU x).1 hx
      have hk'' := (hkidU x hxb k).1 hk'
      exact W.depth_kid (hbelA x hxb).1 hk'' (hbelA k (.step hxb hk'')).2
    · intro x hx q hq
      obtain ⟨_, hxb⟩ := (hU x).1 hx
      rw [kids_congr (hnodeU x hxb)] at hq
      exact W.edges x (hbelA x hxb).1 q hq
    · -- the flow
      intro x hx
      obtain ⟨hxA, hxb⟩ := (hmem x).1 hx
      have hxb' : x ≠ b := fun e => hxb (e ▸ .refl)
      have hfl := F x hxA
      have hin : inflow (joined h r b p) (A.filter (fun x => ¬ Below h b x)) x = inflow h A x + if x = r then edge h p b else 0 := by
        unfold inflow
        have h1 : ∑ y ∈ A, edge h y x = ∑ y ∈ A.filter (fun x => ¬ Below h b x), edge h y x := by
          symm
          apply Finset.sum_subset (Finset.filter_subset _ _)
          intro y hy hny
          apply edge_zero
          intro hky
          have hby : Below h b y := by
            by_contra hc
            exact hny ((hmem y).2 ⟨hy, hc⟩)
          exact hxb (.step hby hky)
        rw [h1]
        have h2 : ∀ y ∈ A.filter (fun x => ¬ Below h b x), edge (joined h r b p) y x =
            edge h y x + if y = p then (if x = r then edge h p b else 0) else 0 := by
          intro y hy
          rw [hedge]
          by_cases e1 : y = p
          · subst e1
            by_cases e2 : x = r
            · subst e2; simp [edge_zero hkr]
            · simp [e2, hxb']
          · simp [e1]
        rw [Finset.sum_congr rfl h2, Finset.sum_add_distrib, Finset.sum_ite_eq', if_pos ((hmem p).2 ⟨hpA, hnbr p hp⟩)]
      rw [hin, joined_count, joined_leaving, hedgeb]
      dsimp only at hfl ⊢
      have hsum : ((h.kids b).map (·.2)).sum = leaving h b := rfl
      rw [hsum]
      split_ifs at hfl ⊢ <;> omega
    · intro q hq
      have hkq := kid_of_mem hq
      exact (hU q.1).2 ⟨fun e => hnob b .refl (by rw [e] at hkq; exact hkq), .step .refl hkq⟩
    · intro q hq x hx hk'
      obtain ⟨hxne, hxb⟩ := (hU x).1 hx
      have hk'' := (hkidU x hxb _).1 hk'
      have hqb := hbelA q.1 (.step .refl (kid_of_mem hq))
      have h1 := W.par q.1 hqb.1 hqb.2 x (hbelA x hxb).1 hk''
      have h2 := W.par q.1 hqb.1 hqb.2 b hb (kid_of_mem hq)
      rw [h1] at h2
      injection h2 with e
      exact hxne e
    · intro q hq
      have hqb : Below h b q.1 := .step .refl (kid_of_mem hq)
      rw [count_congr (hnodeU _ hqb), leaving_congr (kids_congr (hnodeU _ hqb))]
      exact hflowb b .refl q hq
    · intro q hq; exact W.edges b hb q hq
    · intro q hq
      have h1 := W.depth_kid hb (kid_of_mem hq) (hbelA q.1 (.step .refl (kid_of_mem hq))).2
      have h2 : depth h R A b ≤ A.card := Nat.sub_le _ _
      omega
  obtain ⟨h', A', e, Q⟩ := foldKids_spec f _ _ _ _ _ _ P
  have hfoldb : (joined h r b p).kids b = h.kids b := kids_congr (hnodeU b .refl)
  have hlab : ∀ x, h'.label x = h.label x := fun x => (Q.labels x).trans (joined_label x)
  refine ⟨h', A', ?_, Q.wf, Q.flow, ?_, hlab, Q.size, ?_, ?_⟩
  · unfold Alergia.merge
    have hpar' : (h.setCount r (h.count r + h.count b)).parent b = some p := by simp [hpar]
    simp only [hpar']
    show fold (f + 1) (joined h r b p) r b = some h'
    unfold fold
    rw [hfoldb]
    exact e
  · intro x hx
    rw [Finset.mem_erase]
    rcases Q.from_ x hx with hA | ⟨q, hq, hbq⟩
    · exact ⟨fun e => ((hmem x).1 hA).2 (e ▸ .refl), ((hmem x).1 hA).1⟩
    · have hqU := P.mem q hq
      have := hbq.mem P.forest.closed hqU
      exact ⟨((hU x).1 this).1, (hbelA x ((hU x).1 this).2).1⟩
  · -- the words
    have key : ∀ w, ∀ x ∈ A, ¬ Below h b x → (follow h x w).isSome → (follow h' x w).isSome := by
      intro w
      induction w with
      | nil => intro x _ _ _; rfl
      | cons a w ih =>
        intro x hxA hxb hw
        have hx0 := (hmem x).2 ⟨hxA, hxb⟩
        simp only [follow] at hw ⊢
        cases hfk : h.findKid x a with
        | none => rw [hfk] at hw; cases hw
        | some k =>
          rw [hfk] at hw
          obtain ⟨hkk, hkl⟩ := findKid_some hfk
          have keep : ∀ k', (joined h r b p).Kid x k' → h.label k' = a → h'.findKid x a = some k' := by
            intro k' hk' hl'
            have h1 := (joined_det (r := r) (b := b) hdp hl (W.det x hxA)).findKid hk'
            rw [joined_label, hl'] at h1
            have h2 := Q.keeps x hx0 [a] k' (by simp only [follow]; rw [h1])
            simp only [follow] at h2
            cases hf' : h'.findKid x a with
            | none => rw [hf'] at h2; cases h2
            | some k'' => rw [hf'] at h2; exact h2
          by_cases hkb : Below h b k
          · obtain ⟨rfl, rfl⟩ := hA0 x hxA hxb k hkk hkb
            rw [keep r ((hkid _ _).2 (.inr ⟨rfl, rfl⟩)) (hl.trans hkl)]
            dsimp only at hw ⊢
            cases w with
            | nil => rfl
            | cons a' w =>
              simp only [follow] at hw ⊢
              cases hfk' : h.findKid k a' with
              | none => rw [hfk'] at hw; cases hw
              | some k' =>
                rw [hfk'] at hw
                obtain ⟨hkk', hkl'⟩ := findKid_some hfk'
                obtain ⟨ck, hck⟩ := kid_iff.1 hkk'
                have hk'U := P.mem (k', ck) hck
                obtain ⟨k'', e1, e2⟩ := Q.read (k', ck) hck w (by
                  rw [← follow_congr (h := joined h r k x) (h' := h) P.forest.closed
                    (fun y hy => (kids_congr (hnodeU y ((hU y).1 hy).2)).symm) (fun y => (joined_label y).symm) hk'U]
                  exact hw)
                rw [joined_label] at e1
                dsimp only at e1
                rw [hkl'] at e1
                rw [e1]
                exact e2
          · have hne : ¬ (x = p ∧ k = b) := fun e => hkb (e.2 ▸ .refl)
            rw [keep k ((hkid _ _).2 (.inl ⟨hkk, hne⟩)) hkl]
            exact ih k (W.closed x hxA k hkk) hkb hw
    intro x hx w hw
    exact key w x (W.sub hx) (hnbr x hx) hw
  · intro x hx k hkR hkk
    have h1 : (joined h r b p).Kid x k := (hkid x k).2 (.inl ⟨hkk, fun e => hbR (e.2 ▸ hkR)⟩)
    have h2 := (joined_det (r := r) (b := b) hdp hl (W.det x (W.sub hx))).findKid h1
    have h3 := Q.keeps x ((hmem x).2 ⟨W.sub hx, hnbr x hx⟩) [(joined h r b p).label k] k (by simp only [follow]; rw [h2])
    simp only [follow] at h3
    cases hf' : h'.findKid x ((joined h r b p).label k) with
    | none => rw [hf'] at h3; cases h3
    | some k' =>
      rw [hf'] at h3
      injection h3 with h3
      subst h3
      exact (findKid_some hf').1

/-! ### The loop -/

/-- A red node is reached from the root through red nodes. -/
inductive RedBelow (h : Heap) (R : Finset ℕ) : ℕ → Prop
  | root : RedBelow h R 0
  | step {p x : ℕ} : RedBelow h R p → p ∈ R → x ∈ R → h.Kid p x → RedBelow h R x

theorem RedBelow.mono {h h' : Heap} {R R' : Finset ℕ} (hs : R ⊆ R') (hk : ∀ x ∈ R, ∀ k ∈ R, h.Kid x k → h'.Kid x k) {x : ℕ}
    (r : RedBelow h R x) : RedBelow h' R' x := by
  induction r with
  | root => exact .root
  | step _ hp hx k ih => exact .step ih (hs hp) (hs hx) (hk _ hp _ hx k)

theorem RedBelow.toBelow {h : Heap} {R : Finset ℕ} {x : ℕ} (r : RedBelow h R x) : Below h 0 x := by
  induction r with
  | root => exact .refl
  | step _ _ _ k ih => exact .step ih k

/-- A blue node becomes red. -/
theorem WF.redden (W : WF h R A lo) (hb : b ∈ A) (hp : p ∈ R) (hk : h.Kid p b) (hbR : b ∉ R) : WF h (insert b R) A lo := by
  have hin : ∀ x, x ∉ insert b R → x ≠ b ∧ x ∉ R := fun x hx => by simpa using hx
  refine ⟨by simp [W.root], ?_, W.closed, ?_, ?_, ?_, W.det, ?_, W.edges⟩
  · intro x hx
    rcases Finset.mem_insert.1 hx with rfl | hx
    · exact hb
    · exact W.sub hx
  · intro x hx hr k hk' hkr
    rcases Finset.mem_insert.1 hkr with rfl | hkr
    · have h1 := W.par k hb hbR x hx hk'
      have h2 := W.par k hb hbR p (W.sub hp) hk
      rw [h1] at h2
      injection h2 with e
      exact (hin x hr).2 (e ▸ hp)
    · exact W.noRed x hx (hin x hr).2 k hk' hkr
  · intro x hx hr; exact W.par x hx (hin x hr).2
  · intro x hx hr; exact W.parIn x hx (hin x hr).2
  · intro x hx
    obtain ⟨m, u⟩ := W.up x hx
    clear hx
    induction u with
    | red hr => exact ⟨0, .red (Finset.mem_insert_of_mem hr)⟩
    | @step x q m hr hq _ ih =>
      by_cases e : x = b
      · exact ⟨0, .red (by simp [e])⟩
      · obtain ⟨m', u'⟩ := ih
        exact ⟨m' + 1, .step (by simp [e, hr]) hq u'⟩

theorem mem_blues (h : Heap) (red : List ℕ) (x : ℕ) : x ∈ blues h red ↔ x ∉ red ∧ ∃ s ∈ red, h.Kid s x := by
  unfold blues
  have key : ∀ (l acc : List ℕ), x ∈ l.foldl (fun blue s => blue ++ ((h.kids s).map (·.1)).filter
      (fun k => decide (k ∉ red) && decide (k ∉ blue))) acc ↔ x ∈ acc ∨ (x ∉ red ∧ ∃ s ∈ l, h.Kid s x) := by
    intro l
    induction l with
    | nil => intro acc; simp
    | cons s l ih =>
      intro acc
      rw [List.foldl_cons, ih]
      rw [List.mem_append, List.mem_filter]
      have : x ∈ (h.kids s).map (·.1) ↔ h.Kid s x := Iff.rfl
      rw [this]
      simp only [Bool.and_eq_true, decide_eq_true_eq, List.mem_cons, exists_eq_or_imp]
      tauto
  rw [key]; simp

theorem blues_nil (W : WF h R A lo) {red : List ℕ} (hR : ∀ x, x ∈ red ↔ x ∈ R) (hb : blues h red = []) : A = R := by
  apply Finset.Subset.antisymm _ W.sub
  intro x hx
  obtain ⟨m, u⟩ := W.up x hx
  induction u with
  | red hr => exact hr
  | @step x p m hr hp _ ih =>
    obtain ⟨p', hpA, hp', hk⟩ := W.parIn x hx hr
    rw [hp] at hp'
    injection hp' with e
    subst e
    have hpR := ih hpA
    have : x ∈ blues h red := (mem_blues h red x).2 ⟨fun hm => hr ((hR x).1 hm), p, (hR p).2 hpR, hk⟩
    rw [hb] at this
    cases this

theorem mergeFirst_some {compat : Heap → ℕ → ℕ → Py Bool} {s1 s2 : ℕ} {red : List ℕ} (hm : mergeFirst compat h s1 red = .ok (some s2)) :
    s2 ∈ red ∧ compat h s1 s2 = .ok true := by
  induction red with
  | nil => cases hm
  | cons s red ih =>
    unfold mergeFirst at hm
    cases hc : compat h s1 s with
    | error e => rw [hc] at hm; cases hm
    | ok v =>
      rw [hc] at hm
      cases v with
      | true =>
        injection hm with hm
        injection hm with hm
        subst hm
        exact ⟨by simp, hc⟩
      | false =>
        obtain ⟨a, b⟩ := ih hm
        exact ⟨by simp [a], b⟩

/-- What holds of the result of the merging. -/
structure Merged (h h' : Heap) (A A' : Finset ℕ) (lo N : ℕ) : Prop where
  wf : WF h' A' A' lo
  flow : Flow h' A' N (fun _ => 0)
  sub : A' ⊆ A
  labels : ∀ x, h'.label x = h.label x
  size : h'.size = h.size
  words : ∀ w, (follow h 0 w).isSome → (follow h' 0 w).isSome
  reach : ∀ x ∈ A', Below h' 0 x

/-- **The loop ends** within as many rounds as there are nodes that are not red, whatever the outcomes of the tests are, and
keeps the invariant. -/
theorem loop_spec {compat : Heap → ℕ → ℕ → Py Bool} (hcompat : ∀ h s1 s2, compat h s1 s2 = .ok true → h.label s1 = h.label s2)
    {depth : ℕ} (f : ℕ) (h : Heap) (R A : Finset ℕ) (red : List ℕ) (W : WF h R A lo) (F : Flow h A N (fun _ => 0))
    (hreach : ∀ x ∈ R, RedBelow h R x) (hR : ∀ x, x ∈ red ↔ x ∈ R) (hf : (A \ R).card < f) (hd : A.card < depth) (blue : List ℕ)
    (hblue : blue = [] → A = R) (hblue' : ∀ x ∈ blue, x ∉ R ∧ ∃ s ∈ R, h.Kid s x) :
    (∃ e h1 s1 s2 R1 A1, loop compat depth f h red blue = .error e ∧ compat h1 s1 s2 = .error e ∧ WF h1 R1 A1 lo ∧ s1 ∈ A1 ∧ s1 ∉ R1 ∧
        A1 ⊆ A ∧ h1.size = h.size) ∨
      ∃ h' A' red', loop compat depth f h red blue = .ok (some (h', red')) ∧ (∀ x, x ∈ red' ↔ x ∈ A') ∧ Merged h h' A A' lo N := by
  induction f generalizing h R A red blue with
  | zero => omega
  | succ f ih =>
    cases blue with
    | nil =>
      right
      have e := hblue rfl
      subst e
      exact ⟨h, A, red, rfl, hR, W, F, fun x hx => hx, fun _ => rfl, rfl, fun _ hw => hw, fun x hx => (hreach x hx).toBelow⟩
    | cons b bs =>
      obtain ⟨hbR, p, hp, hk⟩ := hblue' b (by simp)
      have hbA := W.closed p (W.sub hp) b hk
      have hbAR : b ∈ A \ R := Finset.mem_sdiff.2 ⟨hbA, hbR⟩
      cases hm : mergeFirst compat h b red with
      | error e =>
        left
        have : ∃ s2, compat h b s2 = .error e := by
          clear * - hm
          induction red with
          | nil => cases hm
          | cons s red ih =>
            unfold mergeFirst at hm
            cases hc : compat h b s with
            | error e' => rw [hc] at hm; exact ⟨s, by rw [hc]; injection hm with hm; rw [hm]⟩
            | ok v =>
              rw [hc] at hm
              cases v with
              | true => cases hm
              | false => exact ih hm
        obtain ⟨s2, hs2⟩ := this
        exact ⟨e, h, b, s2, R, A, by unfold loop; rw [hm]; rfl, hs2, W, hbA, hbR, fun x hx => hx, rfl⟩
      | ok v =>
        cases v with
        | some s2 =>
          obtain ⟨hs2, hc⟩ := mergeFirst_some hm
          obtain ⟨h1, A1, e1, W1, F1, hs, hl, hz, hw, hkk⟩ := W.merge F hbA hbR hp hk ((hR s2).1 hs2) (hcompat h b s2 hc).symm hd
          have hc1 : (A1 \ R).card < (A \ R).card := by
            apply Finset.card_lt_card
            refine Finset.ssubset_iff_of_subset (fun x hx => ?_) |>.2 ⟨b, hbAR, fun hb' => ?_⟩
            · rw [Finset.mem_sdiff] at hx ⊢
              exact ⟨Finset.mem_of_mem_erase (hs hx.1), hx.2⟩
            · exact Finset.ne_of_mem_erase (hs (Finset.mem_sdiff.1 hb').1) rfl
          have hc2 : A1.card < depth := lt_of_le_of_lt (Finset.card_le_card (hs.trans (Finset.erase_subset _ _))) hd
          have hbl : ∀ x ∈ blues h1 red, x ∉ R ∧ ∃ s ∈ R, h1.Kid s x := by
            intro x hx
            obtain ⟨a, s, hs, hk⟩ := (mem_blues h1 red x).1 hx
            exact ⟨fun e => a ((hR x).2 e), s, (hR s).1 hs, hk⟩
          have := ih h1 R A1 red W1 F1 (fun x hx => (hreach x hx).mono (fun _ h => h) hkk) hR (by omega) hc2 (blues h1 red) (blues_nil W1 hR) hbl
          have hstep : loop compat depth (f + 1) h red (b :: bs) = loop compat depth f h1 red (blues h1 red) := by
            conv_lhs => unfold loop
            rw [hm]
            simp only [bind, Except.bind]
            rw [e1]
          rw [hstep]
          rcases this with ⟨e, h2, s1, s2', R1, A1', a1, a2, a3, a4, a5, a6, a7⟩ | ⟨h', A', red', a1, a2, M⟩
          · exact .inl ⟨e, h2, s1, s2', R1, A1', a1, a2, a3, a4, a5, fun x hx => Finset.mem_of_mem_erase (hs (a6 hx)), a7.trans hz⟩
          · exact .inr ⟨h', A', red', a1, a2, M.wf, M.flow, fun x hx => Finset.mem_of_mem_erase (hs (M.sub hx)),
              fun x => (M.labels x).trans (hl x), M.size.trans hz, fun w hw' => M.words w (hw 0 W.root w hw'), M.reach⟩
        | none =>
          have W1 := W.redden hbA hp hk hbR
          have hR1 : ∀ x, x ∈ red ++ [b] ↔ x ∈ insert b R := fun x => by simp [hR x, or_comm]
          have hc1 : (A \ insert b R).card < (A \ R).card := by
            apply Finset.card_lt_card
            refine Finset.ssubset_iff_of_subset (fun x hx => ?_) |>.2 ⟨b, hbAR, fun hb' => ?_⟩
            · rw [Finset.mem_sdiff] at hx ⊢
              exact ⟨hx.1, fun e => hx.2 (Finset.mem_insert_of_mem e)⟩
            · exact (Finset.mem_sdiff.1 hb').2 (Finset.mem_insert_self _ _)
          have hbl : ∀ x ∈ blues h (red ++ [b]), x ∉ insert b R ∧ ∃ s ∈ insert b R, h.Kid s x := by
            intro x hx
            obtain ⟨a, s, hs, hk⟩ := (mem_blues h _ x).1 hx
            exact ⟨fun e => a ((hR1 x).2 e), s, (hR1 s).1 hs, hk⟩
          have hstep : loop compat depth (f + 1) h red (b :: bs) = loop compat depth f h (red ++ [b]) (blues h (red ++ [b])) := by
            conv_lhs => unfold loop
            rw [hm]
            rfl
          rw [hstep]
          have hreach1 : ∀ x ∈ insert b R, RedBelow h (insert b R) x := by
            have hold : ∀ x ∈ R, RedBelow h (insert b R) x := fun x hx =>
              (hreach x hx).mono (Finset.subset_insert _ _) (fun _ _ _ _ h => h)
            intro x hx
            rcases Finset.mem_insert.1 hx with rfl | hx
            · exact .step (hold p hp) (Finset.mem_insert_of_mem hp) (Finset.mem_insert_self _ _) hk
            · exact hold x hx
          exact ih h (insert b R) A (red ++ [b]) W1 F hreach1 hR1 (by omega) hd (blues h (red ++ [b])) (blues_nil W1 hR1) hbl

end Jajapy.Alergia
