import Verif.Lemmas.AlergiaFold

/-!
The two cases of a step of `fold`, and `fold` itself.
-/

namespace Jajapy.Alergia

open Spec.Alergia Heap

variable {h : Heap} {R A U : Finset ℕ} {dep d : ℕ → ℕ} {lo N f s1 k2 c : ℕ} {l : List (ℕ × ℕ)}

/-! ### The kid is moved -/

/-- The heap after the kid `k2` has been given to `s1`. -/
def moved (h : Heap) (s1 k2 c : ℕ) : Heap := (h.addKid s1 k2 c).setParent k2 s1

theorem moved_label (x : ℕ) : (moved h s1 k2 c).label x = h.label x := by simp [moved]
theorem moved_count (x : ℕ) : (moved h s1 k2 c).count x = h.count x := by simp [moved]
theorem moved_parent (x : ℕ) : (moved h s1 k2 c).parent x = if x = k2 then some s1 else h.parent x := by
  simp [moved, setParent_parent]
theorem moved_kids_ne {x : ℕ} (hx : x ≠ s1) : (moved h s1 k2 c).kids x = h.kids x := by
  simp [moved, addKid_kids_ne h s1 x k2 c hx]
theorem moved_kids_perm : ((moved h s1 k2 c).kids s1).Perm ((k2, c) :: h.kids s1) := by
  simpa [moved] using addKid_kids_perm h s1 k2 c
theorem moved_node {x : ℕ} (hx : x ≠ s1) (hx' : x ≠ k2) : (moved h s1 k2 c).node x = h.node x := by
  rw [moved, setParent_node _ _ _ _ hx', addKid_node _ _ _ _ _ hx]

theorem moved_kid (x k : ℕ) : (moved h s1 k2 c).Kid x k ↔ h.Kid x k ∨ (x = s1 ∧ k = k2) := by
  unfold Kid
  by_cases hx : x = s1
  · subst hx
    rw [(moved_kids_perm.map _).mem_iff]
    simp only [List.map_cons, List.mem_cons, true_and]
    tauto
  · rw [moved_kids_ne hx]; simp [hx]

theorem moved_leaving (x : ℕ) : leaving (moved h s1 k2 c) x = leaving h x + if x = s1 then c else 0 := by
  unfold leaving
  by_cases hx : x = s1
  · subst hx
    rw [(moved_kids_perm.map _).sum_eq, if_pos rfl]
    simp; omega
  · rw [moved_kids_ne hx, if_neg hx]; rfl

theorem moved_edge (y x : ℕ) : edge (moved h s1 k2 c) y x = edge h y x + if y = s1 ∧ x = k2 then c else 0 := by
  unfold edge
  by_cases hy : y = s1
  · subst hy
    rw [((moved_kids_perm.filter _).map _).sum_eq]
    by_cases hx : x = k2
    · subst hx; simp; omega
    · have : k2 ≠ x := fun e => hx e.symm
      simp [hx, this]
  · rw [moved_kids_ne hy]; simp [hy]

theorem edge_kid {y x : ℕ} (hd : h.Det y) (hk : h.Kid y x) : (x, edge h y x) ∈ h.kids y := by
  obtain ⟨c, hc⟩ := kid_iff.1 hk
  rw [edge_eq hd.nodup hc]; exact hc

open Classical in
theorem Pre.move (P : Pre h R A U dep lo N f d s1 ((k2, c) :: l)) (hf : h.findKid s1 (h.label k2) = none) :
    Post h (moved h s1 k2 c) R A (A ∪ U.filter (Below h k2)) lo N (fun x => d x + if x = s1 then (l.map (·.2)).sum else 0) s1 [(k2, c)] := by
  have hkU : k2 ∈ U := P.mem (k2, c) (by simp)
  have hkA : k2 ∉ A := fun hA => P.disj k2 hA hkU
  have hks : k2 ≠ s1 := fun e => hkA (e ▸ P.s1)
  have hsU : ∀ x, x ∈ U → x ≠ s1 := fun x hx e => P.disj s1 P.s1 (e ▸ hx)
  have htop := P.top (k2, c) (by simp)
  have hS : ∀ x, x ∈ U.filter (Below h k2) ↔ x ∈ U ∧ Below h k2 x := fun x => Finset.mem_filter
  have hSk : ∀ x, x ∈ U → Below h k2 x → ∀ k, h.Kid x k → k ∈ U ∧ Below h k2 k ∧ k ≠ k2 := fun x hx b k hk =>
    ⟨P.forest.closed x hx k hk, .step b hk, fun e => htop x hx (e ▸ hk)⟩
  have hAk : ∀ x ∈ A, ∀ k, h.Kid x k → k ≠ k2 := fun x hx k hk e => hkA (e ▸ P.wf.closed x hx k hk)
  have hmem : ∀ x, x ∈ A ∪ U.filter (Below h k2) ↔ x ∈ A ∨ (x ∈ U ∧ Below h k2 x) := fun x => by
    rw [Finset.mem_union, hS]
  have hUR : ∀ x ∈ U, x ∉ R := fun x hx hr => P.disj x (P.wf.sub hr) hx
  have hdet : ∀ x ∈ A ∪ U.filter (Below h k2), (moved h s1 k2 c).Det x := by
    intro x hx
    unfold Det
    simp only [moved_label]
    by_cases hxs : x = s1
    · subst hxs
      rw [(moved_kids_perm.map _).nodup_iff, List.map_cons, List.nodup_cons]
      refine ⟨fun hm => ?_, P.wf.det x P.s1⟩
      obtain ⟨q, hq, e⟩ := List.mem_map.1 hm
      exact findKid_none.1 hf q.1 (kid_of_mem hq) e
    · rw [moved_kids_ne hxs]
      rcases (hmem x).1 hx with hA | ⟨hU, _⟩
      · exact P.wf.det x hA
      · exact P.forest.det x hU
  have hkeepA : ∀ x ∈ A, ∀ m, Up h R x m → Up (moved h s1 k2 c) R x m := by
    intro x hx m u
    induction u with
    | red hr => exact .red hr
    | @step x p m hr hp _ ih =>
      obtain ⟨p', hp'A, hp', _⟩ := P.wf.parIn x hx hr
      rw [hp] at hp'
      injection hp' with e
      subst e
      refine .step hr ?_ (ih hp'A)
      rw [moved_parent, if_neg (fun e : x = k2 => hkA (e ▸ hx))]
      exact hp
  have hin : ∀ x ∈ A, inflow (moved h s1 k2 c) (A ∪ U.filter (Below h k2)) x = inflow h A x := by
    intro x hx
    unfold inflow
    rw [Finset.sum_union]
    · rw [Finset.sum_eq_zero (s := U.filter (Below h k2)), add_zero]
      · apply Finset.sum_congr rfl
        intro y hy
        rw [moved_edge, if_neg (fun e : y = s1 ∧ x = k2 => hkA (e.2 ▸ hx)), add_zero]
      · intro y hy
        rw [moved_edge, if_neg (fun e : y = s1 ∧ x = k2 => hkA (e.2 ▸ hx)), add_zero]
        apply edge_zero
        intro hk
        exact P.disj x hx (P.forest.closed y ((hS y).1 hy).1 x hk)
    · rw [Finset.disjoint_left]
      intro y hy hy'
      exact P.disj y hy ((hS y).1 hy').1
  refine ⟨⟨P.wf.root, fun x hx => (hmem x).2 (.inl (P.wf.sub hx)), ?_, ?_, ?_, ?_, hdet, ?_, ?_⟩, ?_, ?_, ?_, ?_, rfl, moved_label, ?_, ?_⟩
  · intro x hx k hk
    rw [moved_kid] at hk
    rw [hmem] at hx ⊢
    rcases hk with hk | ⟨rfl, rfl⟩
    · rcases hx with hA | ⟨hU, hb⟩
      · exact .inl (P.wf.closed x hA k hk)
      · exact .inr ⟨(hSk x hU hb k hk).1, (hSk x hU hb k hk).2.1⟩
    · exact .inr ⟨hkU, .refl⟩
  · intro x hx hr k hk
    rw [moved_kid] at hk
    rw [hmem] at hx
    rcases hk with hk | ⟨rfl, rfl⟩
    · rcases hx with hA | ⟨hU, hb⟩
      · exact P.wf.noRed x hA hr k hk
      · exact hUR k (hSk x hU hb k hk).1
    · exact hUR k hkU
  · intro x hx hr y hy hk
    rw [moved_kid] at hk
    rw [hmem] at hx hy
    rw [moved_parent]
    rcases hk with hk | ⟨rfl, rfl⟩
    · rcases hy with hyA | ⟨hyU, hyb⟩
      · rw [if_neg (hAk y hyA x hk)]
        exact P.wf.par x (P.wf.closed y hyA x hk) hr y hyA hk
      · rw [if_neg (hSk y hyU hyb x hk).2.2]
        exact P.forest.par y hyU x hk
    · rw [if_pos rfl]
  · intro x hx hr
    rw [hmem] at hx
    rcases hx with hA | ⟨hU, hb⟩
    · obtain ⟨p, h1, h2, h3⟩ := P.wf.parIn x hA hr
      refine ⟨p, (hmem p).2 (.inl h1), ?_, (moved_kid p x).2 (.inl h3)⟩
      rw [moved_parent, if_neg (fun e : x = k2 => hkA (e ▸ hA))]; exact h2
    · cases hb with
      | refl => exact ⟨s1, (hmem s1).2 (.inl P.s1), by rw [moved_parent, if_pos rfl], (moved_kid _ _).2 (.inr ⟨rfl, rfl⟩)⟩
      | @step p _ hb hk =>
        have hpU := hb.mem P.forest.closed hkU
        refine ⟨p, (hmem p).2 (.inr ⟨hpU, hb⟩), ?_, (moved_kid p x).2 (.inl hk)⟩
        rw [moved_parent, if_neg (hSk p hpU hb x hk).2.2]
        exact P.forest.par p hpU x hk
  · intro x hx
    rw [hmem] at hx
    rcases hx with hA | ⟨hU, hb⟩
    · obtain ⟨m, hm⟩ := P.wf.up x hA
      exact ⟨m, hkeepA x hA m hm⟩
    · induction hb with
      | refl =>
        obtain ⟨m, hm⟩ := P.wf.up s1 P.s1
        exact ⟨m + 1, .step (hUR k2 hkU) (by rw [moved_parent, if_pos rfl]) (hkeepA s1 P.s1 m hm)⟩
      | @step p x hb hk ih =>
        have hpU := hb.mem P.forest.closed hkU
        obtain ⟨m, hm⟩ := ih hpU
        refine ⟨m + 1, .step (hUR x hU) ?_ hm⟩
        rw [moved_parent, if_neg (hSk p hpU hb x hk).2.2]
        exact P.forest.par p hpU x hk
  · intro x hx q hq
    rw [hmem] at hx
    by_cases hxs : x = s1
    · subst hxs
      rw [moved_kids_perm.mem_iff] at hq
      rcases List.mem_cons.1 hq with rfl | hq
      · exact P.lo (k2, c) (by simp)
      · exact P.wf.edges x P.s1 q hq
    · rw [moved_kids_ne hxs] at hq
      rcases hx with hA | ⟨hU, _⟩
      · exact P.wf.edges x hA q hq
      · exact P.forest.edges x hU q hq
  · -- the flow
    intro x hx
    rw [hmem] at hx
    rw [moved_count, moved_leaving]
    rcases hx with hA | ⟨hU, hb⟩
    · rw [hin x hA, P.flow x hA]
      by_cases hxs : x = s1
      · simp [hxs]; omega
      · simp [hxs]
    · have hx0 : x ≠ 0 := fun e => hUR x hU (e ▸ P.wf.root)
      dsimp only
      rw [if_neg hx0, P.dU x hU, if_neg (hsU x hU), if_neg (hsU x hU)]
      simp only [add_zero]
      unfold inflow
      have key : ∀ p, p ∈ A ∪ U.filter (Below h k2) → (∀ y ∈ A ∪ U.filter (Below h k2), (moved h s1 k2 c).Kid y x → y = p) →
          ∑ y ∈ A ∪ U.filter (Below h k2), edge (moved h s1 k2 c) y x = edge (moved h s1 k2 c) p x := by
        intro p hp hu
        apply Finset.sum_eq_single p
        · intro y hy hne
          exact edge_zero (fun hk => hne (hu y hy hk))
        · intro hn; exact absurd hp hn
      cases hb with
      | refl =>
        rw [key s1 ((hmem s1).2 (.inl P.s1)), moved_edge, if_pos ⟨rfl, rfl⟩, edge_zero (fun hk => hAk s1 P.s1 _ hk rfl), zero_add]
        · exact P.val (k2, c) (by simp)
        · intro y hy hk
          rw [moved_kid] at hk
          rcases hk with hk | ⟨e, _⟩
          · rcases (hmem y).1 hy with hyA | ⟨hyU, hyb⟩
            · exact absurd rfl (hAk y hyA _ hk)
            · exact absurd hk (htop y hyU)
          · exact e
      | @step p _ hb hk =>
        have hpU := hb.mem P.forest.closed hkU
        rw [key p ((hmem p).2 (.inr ⟨hpU, hb⟩)), moved_edge, if_neg (fun e => hsU p hpU e.1), add_zero]
        · exact P.forest.flow p hpU _ (edge_kid (P.forest.det p hpU) hk)
        · intro y hy hky
          rw [moved_kid] at hky
          rcases hky with hky | ⟨_, e⟩
          · rcases (hmem y).1 hy with hyA | ⟨hyU, _⟩
            · exact absurd (P.wf.closed y hyA x hky) (fun hA => P.disj x hA hU)
            · have e1 := P.forest.par y hyU x hky
              have e2 := P.forest.par p hpU x hk
              rw [e1] at e2
              injection e2
          · exact absurd e (hSk p hpU hb x hk).2.2
  · intro x hx; exact (hmem x).2 (.inl hx)
  · intro x hx
    rcases (hmem x).1 hx with hA | ⟨_, hb⟩
    · exact .inl hA
    · exact .inr ⟨(k2, c), by simp, hb⟩
  · intro x hx hb
    refine moved_node (fun e => hx (e ▸ P.s1)) (fun e => hb (k2, c) (by simp) ?_)
    rw [e]; exact .refl
  · exact keeps_of_kids (fun x hx k hk => P.wf.closed x hx k hk) (fun x hx => hdet x ((hmem x).2 (.inl hx))) moved_label
      (fun x _ k hk => (moved_kid x k).2 (.inl hk))
  · intro q hq w hw
    rw [List.mem_singleton] at hq
    subst hq
    refine ⟨k2, ?_, ?_⟩
    · have := (hdet s1 ((hmem s1).2 (.inl P.s1))).findKid ((moved_kid (c := c) (k2 := k2) s1 k2).2 (.inr ⟨rfl, rfl⟩))
      rwa [moved_label] at this
    · rw [follow_congr P.forest.closed (fun x hx => moved_kids_ne (hsU x hx)) moved_label hkU]
      exact hw

/-! ### The kid is merged -/

/-- The heap before the recursive call: the counts of `k2` go to `k1`. -/
def pooled (h : Heap) (s1 k1 k2 c : ℕ) : Heap := (h.setCount k1 (h.count k1 + h.count k2)).incNode s1 k1 c

variable {k1 : ℕ}

theorem pooled_label (x : ℕ) : (pooled h s1 k1 k2 c).label x = h.label x := by simp [pooled]
theorem pooled_parent (x : ℕ) : (pooled h s1 k1 k2 c).parent x = h.parent x := by simp [pooled]
theorem pooled_count (x : ℕ) : (pooled h s1 k1 k2 c).count x = h.count x + if x = k1 then h.count k2 else 0 := by
  simp only [pooled, incNode_count, setCount_count]
  split_ifs with e
  · rw [e]
  · rfl
theorem pooled_kids (x : ℕ) : (pooled h s1 k1 k2 c).kids x = if x = s1 then incFirst (fun k' => k' = k1) c (h.kids s1) else h.kids x := by
  simp only [pooled, incNode_kids, setCount_kids]
theorem pooled_node {x : ℕ} (hx : x ≠ s1) (hx' : x ≠ k1) : (pooled h s1 k1 k2 c).node x = h.node x := by
  rw [pooled, incNode_node _ _ _ _ _ hx, setCount_node _ _ _ _ hx']
theorem pooled_kid (x k : ℕ) : (pooled h s1 k1 k2 c).Kid x k ↔ h.Kid x k := by
  unfold Kid
  rw [pooled_kids]
  split_ifs with e
  · rw [incFirst_fst, e]
  · rfl
theorem pooled_det {x : ℕ} : (pooled h s1 k1 k2 c).Det x ↔ h.Det x := by
  unfold Det
  have e : ∀ l : List (ℕ × ℕ), l.map (fun q => h.label q.1) = (l.map (·.1)).map h.label := fun l => by simp
  simp only [pooled_label]
  rw [e, e, pooled_kids]
  split_ifs with hx
  · rw [incFirst_fst, hx]
  · rfl
theorem pooled_leaving (hk : h.Kid s1 k1) (x : ℕ) : leaving (pooled h s1 k1 k2 c) x = leaving h x + if x = s1 then c else 0 := by
  unfold leaving
  rw [pooled_kids]
  split_ifs with e
  · rw [incFirst_sum k1 c _ hk, e]
  · rfl
theorem pooled_edge (hk : h.Kid s1 k1) (y x : ℕ) : edge (pooled h s1 k1 k2 c) y x = edge h y x + if y = s1 ∧ x = k1 then c else 0 := by
  unfold edge
  rw [pooled_kids]
  by_cases e : y = s1
  · rw [if_pos e, incFirst_edge k1 c _ hk, e]; simp
  · rw [if_neg e]; simp [e]

theorem Pre.pool (P : Pre h R A U dep lo N (f + 1) d s1 ((k2, c) :: l)) (hf : h.findKid s1 (h.label k2) = some k1) :
    Pre (pooled h s1 k1 k2 c) R A (U.erase k2) dep lo N f (fun x => d x + if x = s1 then (l.map (·.2)).sum else 0) k1 (h.kids k2) := by
  have hk1 := (findKid_some hf).1
  have hk1A : k1 ∈ A := P.wf.closed s1 P.s1 k1 hk1
  have hkU : k2 ∈ U := P.mem (k2, c) (by simp)
  have htop := P.top (k2, c) (by simp)
  have hUs : ∀ x ∈ U, x ≠ s1 := fun x hx e => P.disj s1 P.s1 (e ▸ hx)
  have hUk : ∀ x ∈ U, x ≠ k1 := fun x hx e => P.disj k1 hk1A (e ▸ hx)
  have hnode : ∀ x ∈ U, (pooled h s1 k1 k2 c).node x = h.node x := fun x hx => pooled_node (hUs x hx) (hUk x hx)
  have hdepk : ∀ k, h.Kid k2 k → dep k < dep k2 := fun k hk => P.forest.dep k2 hkU k hk
  have hup : ∀ x ∈ A, ∀ m, Up h R x m → Up (pooled h s1 k1 k2 c) R x m := by
    intro x _ m u
    clear * - u
    induction u with
    | red hr => exact .red hr
    | step hr hp _ ih => exact .step hr (by rw [pooled_parent]; exact hp) ih
  refine ⟨fun x hA hU => P.disj x hA (Finset.mem_of_mem_erase hU),
    ⟨P.wf.root, P.wf.sub, ?_, ?_, ?_, ?_, ?_, ?_, ?_⟩, ⟨?_, ?_, ?_, ?_, ?_, ?_⟩, ?_, ?_, hk1A, ?_, ?_, (P.forest.det k2 hkU).nodup, ?_, ?_, ?_⟩
  · intro x hx k hk; exact P.wf.closed x hx k ((pooled_kid x k).1 hk)
  · intro x hx hr k hk; exact P.wf.noRed x hx hr k ((pooled_kid x k).1 hk)
  · intro x hx hr y hy hk; rw [pooled_parent]; exact P.wf.par x hx hr y hy ((pooled_kid y x).1 hk)
  · intro x hx hr
    obtain ⟨p, e1, e2, e3⟩ := P.wf.parIn x hx hr
    exact ⟨p, e1, by rw [pooled_parent]; exact e2, (pooled_kid p x).2 e3⟩
  · intro x hx; exact pooled_det.2 (P.wf.det x hx)
  · intro x hx
    obtain ⟨m, hm⟩ := P.wf.up x hx
    exact ⟨m, hup x hx m hm⟩
  · intro x hx q hq
    rw [pooled_kids] at hq
    split_ifs at hq with e
    · exact incFirst_lo _ c lo _ (P.wf.edges s1 P.s1) q hq
    · exact P.wf.edges x hx q hq
  · intro x hx k hk
    have hxU := Finset.mem_of_mem_erase hx
    have hk' := (pooled_kid x k).1 hk
    exact Finset.mem_erase.2 ⟨fun e => htop x hxU (e ▸ hk'), P.forest.closed x hxU k hk'⟩
  · intro x hx k hk
    rw [pooled_parent]
    exact P.forest.par x (Finset.mem_of_mem_erase hx) k ((pooled_kid x k).1 hk)
  · intro x hx; exact pooled_det.2 (P.forest.det x (Finset.mem_of_mem_erase hx))
  · intro x hx q hq
    have hxU := Finset.mem_of_mem_erase hx
    rw [kids_congr (hnode x hxU)] at hq
    have hqU := P.forest.closed x hxU q.1 (kid_of_mem hq)
    rw [count_congr (hnode _ hqU), leaving_congr (kids_congr (hnode _ hqU))]
    exact P.forest.flow x hxU q hq
  · intro x hx k hk
    exact P.forest.dep x (Finset.mem_of_mem_erase hx) k ((pooled_kid x k).1 hk)
  · intro x hx q hq
    have hxU := Finset.mem_of_mem_erase hx
    rw [kids_congr (hnode x hxU)] at hq
    exact P.forest.edges x hxU q hq
  · intro x hx
    have hfl := P.flow x hx
    have hv : c = h.count k2 + leaving h k2 := P.val (k2, c) (by simp)
    have hin : inflow (pooled h s1 k1 k2 c) A x = inflow h A x + if x = k1 then c else 0 := by
      unfold inflow
      rw [Finset.sum_congr rfl (fun y _ => pooled_edge hk1 y x), Finset.sum_add_distrib]
      congr 1
      by_cases hxk : x = k1
      · simp [hxk, Finset.sum_ite_eq', P.s1]
      · simp [hxk]
    rw [hin, pooled_count, pooled_leaving hk1]
    dsimp only at hfl ⊢
    have hsum : ((h.kids k2).map (·.2)).sum = leaving h k2 := rfl
    rw [hsum]
    rw [List.map_cons, List.sum_cons] at hfl
    dsimp only at hfl
    by_cases hxk : x = k1 <;> by_cases hxs : x = s1 <;> simp only [hxk, hxs, if_true, if_false] at hfl ⊢ <;>
      split_ifs at hfl ⊢ <;> omega
  · intro x hx
    have hxU := Finset.mem_of_mem_erase hx
    rw [P.dU x hxU, if_neg (hUs x hxU)]
  · intro q hq
    exact Finset.mem_erase.2 ⟨fun e => htop k2 hkU (by have := kid_of_mem hq; rwa [e] at this), P.forest.closed k2 hkU _ (kid_of_mem hq)⟩
  · intro q hq x hx hk
    have hxU := Finset.mem_of_mem_erase hx
    have e1 := P.forest.par x hxU _ ((pooled_kid x _).1 hk)
    have e2 := P.forest.par k2 hkU _ (kid_of_mem hq)
    rw [e1] at e2
    injection e2 with e
    exact Finset.ne_of_mem_erase hx e
  · intro q hq
    have hqU := P.forest.closed k2 hkU q.1 (kid_of_mem hq)
    rw [count_congr (hnode _ hqU), leaving_congr (kids_congr (hnode _ hqU))]
    exact P.forest.flow k2 hkU q hq
  · intro q hq; exact P.forest.edges k2 hkU q hq
  · intro q hq
    have h1 := hdepk q.1 (kid_of_mem hq)
    have h2 := P.depth (k2, c) (by simp)
    dsimp only at h2
    omega

theorem Pre.pooled_post (P : Pre h R A U dep lo N (f + 1) d s1 ((k2, c) :: l)) (hf : h.findKid s1 (h.label k2) = some k1)
    {h' : Heap} {A' : Finset ℕ} {d' : ℕ → ℕ} (Q : Post (pooled h s1 k1 k2 c) h' R A A' lo N d' k1 (h.kids k2)) :
    Post h h' R A A' lo N d' s1 [(k2, c)] := by
  have hk1 := (findKid_some hf).1
  have hk1A : k1 ∈ A := P.wf.closed s1 P.s1 k1 hk1
  have hkU : k2 ∈ U := P.mem (k2, c) (by simp)
  have hUs : ∀ x ∈ U, x ≠ s1 := fun x hx e => P.disj s1 P.s1 (e ▸ hx)
  have hUk : ∀ x ∈ U, x ≠ k1 := fun x hx e => P.disj k1 hk1A (e ▸ hx)
  have hnode : ∀ x ∈ U, (pooled h s1 k1 k2 c).node x = h.node x := fun x hx => pooled_node (hUs x hx) (hUk x hx)
  have hbel : ∀ q ∈ h.kids k2, ∀ x, Below (pooled h s1 k1 k2 c) q.1 x ↔ Below h q.1 x := fun q hq x =>
    Below.congr P.forest.closed hnode (P.forest.closed k2 hkU _ (kid_of_mem hq))
  have hbk : ∀ q ∈ h.kids k2, ∀ x, Below h q.1 x → Below h k2 x := fun q hq x b =>
    (Below.step .refl (kid_of_mem hq)).trans b
  have hlab : ∀ x, h'.label x = h.label x := fun x => (Q.labels x).trans (pooled_label x)
  have hkeep : Keeps h (pooled h s1 k1 k2 c) A := keeps_of_kids (fun x hx k hk => P.wf.closed x hx k hk)
    (fun x hx => pooled_det.2 (P.wf.det x hx)) pooled_label (fun x _ k hk => (pooled_kid x k).2 hk)
  have hkeep' : Keeps h h' A := hkeep.trans Q.keeps (fun x hx => hx)
  refine ⟨Q.wf, Q.flow, Q.grow, ?_, ?_, Q.size, hlab, hkeep', ?_⟩
  · intro x hx
    rcases Q.from_ x hx with hA | ⟨q, hq, hb⟩
    · exact .inl hA
    · exact .inr ⟨(k2, c), by simp, hbk q hq x ((hbel q hq x).1 hb)⟩
  · intro x hx hb
    have hb2 : ¬ Below h k2 x := hb (k2, c) (by simp)
    rw [Q.frame x hx (fun q hq b => hb2 (hbk q hq x ((hbel q hq x).1 b)))]
    exact pooled_node (fun e => hx (e ▸ P.s1)) (fun e => hx (e ▸ hk1A))
  · intro q hq w hw
    rw [List.mem_singleton] at hq
    subst hq
    have hs : h'.findKid s1 (h.label k2) = some k1 := by
      have := hkeep' s1 P.s1 [h.label k2] k1 (by simp only [follow]; rw [hf])
      simp only [follow] at this
      cases hf' : h'.findKid s1 (h.label k2) with
      | none => rw [hf'] at this; cases this
      | some k' => rw [hf'] at this; exact this
    refine ⟨k1, hs, ?_⟩
    cases w with
    | nil => rfl
    | cons a w =>
      simp only [follow] at hw ⊢
      cases hfk : h.findKid k2 a with
      | none => rw [hfk] at hw; cases hw
      | some k =>
        rw [hfk] at hw
        obtain ⟨hkk, hkl⟩ := findKid_some hfk
        obtain ⟨ck, hck⟩ := kid_iff.1 hkk
        obtain ⟨k', e1, e2⟩ := Q.read (k, ck) hck w (by
          rw [follow_congr P.forest.closed (fun x hx => kids_congr (hnode x hx)) pooled_label (P.forest.closed k2 hkU k hkk)]
          exact hw)
        rw [pooled_label] at e1
        dsimp only at e1
        rw [hkl] at e1
        rw [e1]
        exact e2

/-! ### All the kids -/

/-- **`fold` succeeds and keeps the invariant.** -/
theorem foldKids_spec (f : ℕ) (h : Heap) (A U : Finset ℕ) (d : ℕ → ℕ) (s1 : ℕ) (l : List (ℕ × ℕ))
    (P : Pre h R A U dep lo N f d s1 l) : ∃ h' A', foldKids (fold f) s1 l h = some h' ∧ Post h h' R A A' lo N d s1 l := by
  induction f generalizing h A U d s1 l with
  | zero =>
    cases l with
    | nil =>
      refine ⟨h, A, rfl, P.wf, ?_, fun x hx => hx, fun x hx => .inl hx, fun x _ _ => rfl, rfl, fun _ => rfl, fun x _ w y e => e, by simp⟩
      simpa using P.flow
    | cons q l => exact absurd (P.depth q (by simp)) (by omega)
  | succ f ihf =>
    induction l generalizing h A U with
    | nil =>
      refine ⟨h, A, rfl, P.wf, ?_, fun x hx => hx, fun x hx => .inl hx, fun x _ _ => rfl, rfl, fun _ => rfl, fun x _ w y e => e, by simp⟩
      simpa using P.flow
    | cons q l ihl =>
      obtain ⟨k2, c⟩ := q
      have fin : ∀ h1 A1, Post h h1 R A A1 lo N (fun x => d x + if x = s1 then (l.map (·.2)).sum else 0) s1 [(k2, c)] →
          ∃ h' A', foldKids (fold (f + 1)) s1 l h1 = some h' ∧ Post h h' R A A' lo N d s1 ((k2, c) :: l) := by
        intro h1 A1 Q
        have P1 := P.tail Q
        obtain ⟨h', A', e, Q'⟩ := ihl h1 A1 (rest h U k2) P1
        exact ⟨h', A', e, Q.cons P P1 Q'⟩
      unfold foldKids
      cases hf : h.findKid s1 (h.label k2) with
      | none => exact fin _ _ (P.move hf)
      | some k1 =>
        obtain ⟨h2, A2, e2, Q2⟩ := ihf _ _ _ _ _ _ (P.pool hf)
        have hfold : fold (f + 1) (pooled h s1 k1 k2 c) k1 k2 = some h2 := by
          unfold fold
          have : (pooled h s1 k1 k2 c).kids k2 = h.kids k2 := by
            rw [pooled_kids, if_neg]
            intro e
            exact P.disj s1 P.s1 (e ▸ P.mem (k2, c) (by simp))
          rw [this]
          exact e2
        obtain ⟨h', A', e, Q⟩ := fin h2 A2 (P.pooled_post hf Q2)
        refine ⟨h', A', ?_, Q⟩
        show (match fold (f + 1) (pooled h s1 k1 k2 c) k1 k2 with
          | none => none
          | some h2 => foldKids (fold (f + 1)) s1 l h2) = some h'
        rw [hfold]
        exact e

end Jajapy.Alergia
