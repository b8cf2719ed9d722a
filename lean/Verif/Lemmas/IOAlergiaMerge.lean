import Verif.Lemmas.IOAlergiaAuto

/-!
The function `merge`: it ends, keeps the graph a forest below the red states, and keeps the words that can be read.
-/

namespace Jajapy.IOAlergia

open Relation Auto

variable {R : Set ℕ}

/-- The states below a state of the automaton are states of the automaton. -/
theorem below_size {A : Auto} (W : A.WF) {D : Set ℕ} {t z : ℕ} (ht : t < A.size) (hb : Below A.look R D t z) : z < A.size := by
  induction hb with
  | refl => exact ht
  | tail _ e _ =>
    obtain ⟨_, _, k, c, e⟩ := e
    exact (look_key W e).2.2.2.1

theorem below_finite {A : Auto} (W : A.WF) {D : Set ℕ} {t : ℕ} (ht : t < A.size) : {z | Below A.look R D t z}.Finite :=
  (Set.finite_Iio A.size).subset (fun _ hz => below_size W ht hz)

/-- What a call of `merge` with an attached `s1` and an orphan `s2` does. -/
structure Merged (R : Set ℕ) (A : Auto) (D : Set ℕ) (s1 s2 : ℕ) (A' : Auto) (D' : Set ℕ) : Prop where
  same : Same A A'
  wf : A'.WF
  step : Step R {z | Below A.look R D s2 z} A.look D A'.look D'
  mem : s2 ∈ D'
  run : ∀ w z, run A.look s2 w = some z → ∃ z', run A'.look s1 w = some z'

/-- The loop over the keys of `s2`. -/
theorem mergeLoop_spec {rec : Auto → ℕ → ℕ → Option Auto} {n : ℕ}
    (hrec : ∀ (A : Auto) (D : Set ℕ) (s1 s2 : ℕ), A.WF → Forest A.look R D → Attached A.look R D s1 → Orphan A.look R D s2 →
      (A.node s1).obs = (A.node s2).obs → s1 < A.size → s2 < A.size → {z | Below A.look R D s2 z}.ncard ≤ n →
      ∃ A' D', rec A s1 s2 = some A' ∧ Merged R A D s1 s2 A' D')
    (s1 s2 : ℕ) (B : Set ℕ) : ∀ (ks : List Key) (A : Auto) (D : Set ℕ), ks.Nodup → A.WF → Forest A.look R D → Attached A.look R D s1 →
      s1 < A.size → s2 ∈ D →
      (∀ k ∈ ks, ∀ c t, A.look s2 k = some (c, t) → Orphan A.look R D t ∧ (∀ z, Below A.look R D t z → z ∈ B) ∧
        {z | Below A.look R D t z}.ncard ≤ n) →
      (∀ k ∈ ks, ∀ k' ∈ ks, ∀ c c' t, A.look s2 k = some (c, t) → A.look s2 k' = some (c', t) → k = k') →
      ∃ A' D', mergeLoop rec s1 s2 ks A = some A' ∧ Same A A' ∧ A'.WF ∧ Step R B A.look D A'.look D' ∧
        ∀ k ∈ ks, ∀ c t w z, A.look s2 k = some (c, t) → run A.look t w = some z → ∃ z', run A'.look s1 (k :: w) = some z'
  | [], A, D, _, W, F, _, _, _, _, _ => ⟨A, D, rfl, Same.refl A, W, Step.refl F, by simp⟩
  | (a, o) :: ks, A, D, hnd, W, F, h1, hs1, hs2, hkids, hinj => by
    rw [List.nodup_cons] at hnd
    rcases e2 : A.look s2 (a, o) with _ | ⟨c2, t2⟩
    · obtain ⟨A', D', h, hsame, hW, hstep, hrun⟩ := mergeLoop_spec hrec s1 s2 B ks A D hnd.2 W F h1 hs1 hs2
        (fun k hk => hkids k (List.mem_cons_of_mem _ hk))
        (fun k hk k' hk' => hinj k (List.mem_cons_of_mem _ hk) k' (List.mem_cons_of_mem _ hk'))
      refine ⟨A', D', ?_, hsame, hW, hstep, fun k hk c t w z e er => ?_⟩
      · rw [mergeLoop, successor_eq, e2]; exact h
      rcases List.mem_cons.1 hk with rfl | hk
      · rw [e2] at e; cases e
      · exact hrun k hk c t w z e er
    · obtain ⟨ho2, hB2, hn2⟩ := hkids (a, o) List.mem_cons_self c2 t2 e2
      obtain ⟨_, hk2, _, ht2, hob2, hc2⟩ := look_key W e2
      -- the state after the step for this key
      have key : ∃ A1 D1, Same A A1 ∧ A1.WF ∧ Step R {z | Below A.look R D t2 z} A.look D A1.look D1 ∧
          (∀ w z, run A.look t2 w = some z → ∃ z', run A1.look s1 ((a, o) :: w) = some z') ∧
          mergeLoop rec s1 s2 ((a, o) :: ks) A =
            mergeLoop rec s1 s2 ks A1 := by
        rcases e1 : A.look s1 (a, o) with _ | ⟨c1, t1⟩
        · have ha : a ∈ A.actions := by
            simp only [keys, List.mem_flatMap, List.mem_map] at hk2
            obtain ⟨b, hb, o', _, e⟩ := hk2
            cases e; exact hb
          have hob2' : (A.node t2).obs = o := hob2
          have hn : A.look s1 (a, (A.node t2).obs) = none := by rw [hob2']; exact e1
          have hlook := addEdge_look W hs1 ht2 hc2 ha hn
          rw [hob2'] at hlook
          have hst := attach_step F h1 ho2 e1 hlook
          refine ⟨A.addEdge s1 a c2 t2, D, addEdge_same A s1 a c2 t2, addEdge_wf W hs1 ht2 hc2 ha hn, hst, ?_, ?_⟩
          · intro w z er
            refine ⟨z, (run_cons _ _ _ _ _).2 ⟨c2, t2, ?_, ?_⟩⟩
            · rw [hlook, if_pos ⟨rfl, rfl⟩]
            · rw [run_congr (P := fun x => Below A.look R D t2 x) (L := A.look) ?_ ?_ w .refl]
              · exact er
              · intro x k c y hx e
                exact F.below_step ho2 hx ⟨k, c, e⟩
              · intro x hx k
                rw [hlook, if_neg]
                rintro ⟨rfl, _⟩
                exact h1.2 t2 ho2 hx
          · rw [mergeLoop, successor_eq, successor_eq, e1, e2]
            simp only [Option.map_none, Option.map_some]
            rw [prob_eq W e2]
            rfl
        · obtain ⟨_, _, _, ht1, hob1, _⟩ := look_key W e1
          have h1' := F.attached_step h1 ⟨_, _, e1⟩
          obtain ⟨A1, D1, hm, hM⟩ := hrec A D t1 t2 W F h1' ho2 (hob1.trans hob2.symm) ht1 ht2 hn2
          refine ⟨A1, D1, hM.same, hM.wf, hM.step, ?_, ?_⟩
          · intro w z er
            obtain ⟨z', hz'⟩ := hM.run w z er
            exact ⟨z', (run_cons _ _ _ _ _).2 ⟨c1, t1, hM.step.keep e1 (hM.step.att h1').1, hz'⟩⟩
          · rw [mergeLoop, successor_eq, successor_eq, e1, e2]
            simp only [Option.map_some]
            rw [hm]
      obtain ⟨A1, D1, hsame1, W1, hst1, hrun1, heq⟩ := key
      rw [heq]
      have F1 := hst1.forest
      -- the other keys
      have hother : ∀ k ∈ ks, ∀ c t, A.look s2 k = some (c, t) → t ≠ t2 := by
        rintro k hk c t e rfl
        have := hinj k (List.mem_cons_of_mem _ hk) (a, o) List.mem_cons_self c c2 t e e2
        rw [this] at hk
        exact hnd.1 hk
      have hrow : ∀ k ∈ ks, A1.look s2 k = A.look s2 k := by
        intro k hk
        rcases e : A.look s2 k with _ | ⟨c, t⟩
        · rcases hst1.none e with h | h | h
          · exact h
          · exact absurd hs2 h.1
          · exact absurd hs2 (F.below_live ho2.2.1 ho2.1 h).2
        · obtain ⟨ho, _, _⟩ := hkids k (List.mem_cons_of_mem _ hk) c t e
          obtain ⟨ho', _, _⟩ := hst1.frame F ho2 ho (hother k hk c t e)
          exact hst1.keep e ho'.1
      obtain ⟨A', D', h, hsame, hW, hstep, hrun⟩ := mergeLoop_spec hrec s1 s2 B ks A1 D1 hnd.2 W1 F1 (hst1.att h1) (hsame1.size ▸ hs1)
        (hst1.mono hs2)
        (fun k hk c t e => by
          rw [hrow k hk] at e
          obtain ⟨ho, hB, hn⟩ := hkids k (List.mem_cons_of_mem _ hk) c t e
          obtain ⟨ho', _, hb⟩ := hst1.frame F ho2 ho (hother k hk c t e)
          refine ⟨ho', fun z hz => hB z ((hb z).1 hz), ?_⟩
          have : {z | Below A1.look R D1 t z} = {z | Below A.look R D t z} := Set.ext hb
          rw [this]
          exact hn)
        (fun k hk k' hk' c c' t e e' => by
          rw [hrow k hk] at e
          rw [hrow k' hk'] at e'
          exact hinj k (List.mem_cons_of_mem _ hk) k' (List.mem_cons_of_mem _ hk') c c' t e e')
      refine ⟨A', D', h, hsame1.trans hsame, hW, (hst1.weaken hB2).trans hstep, ?_⟩
      intro k hk c t w z e er
      rcases List.mem_cons.1 hk with rfl | hk
      · rw [e2] at e
        cases e
        obtain ⟨z', hz'⟩ := hrun1 w z er
        exact ⟨z', hstep.run F1 _ (hst1.att h1) hz'⟩
      · refine hrun k hk c t w z ((hrow k hk).trans e) ?_
        obtain ⟨ho, _, _⟩ := hkids k (List.mem_cons_of_mem _ hk) c t e
        obtain ⟨_, hr, _⟩ := hst1.frame F ho2 ho (hother k hk c t e)
        rw [run_congr (P := fun x => Below A.look R D t x) (L := A.look) ?_ ?_ w .refl]
        · exact er
        · intro x k c y hx e
          exact F.below_step ho hx ⟨k, c, e⟩
        · intro x hx
          exact (hr x hx).2

/-- After the first step of `merge`: the rest. -/
theorem merge_rest {f : ℕ}
    (hrec : ∀ (A : Auto) (D : Set ℕ) (s1 s2 : ℕ), A.WF → Forest A.look R D → Attached A.look R D s1 → Orphan A.look R D s2 →
      (A.node s1).obs = (A.node s2).obs → s1 < A.size → s2 < A.size → {z | Below A.look R D s2 z}.ncard ≤ f →
      ∃ A' D', merge f A s1 s2 = some A' ∧ Merged R A D s1 s2 A' D')
    {A : Auto} {D : Set ℕ} {s1 s2 : ℕ} (W : A.WF) (F : Forest A.look R D)
    (hK : Kill A.look R D s1 s2 ((A.redirect s1 s2).addCounter s1 s2).look)
    (h1 : Attached ((A.redirect s1 s2).addCounter s1 s2).look R (insert s2 D) s1)
    (ho : (A.node s1).obs = (A.node s2).obs) (hs1 : s1 < A.size) (hs2 : s2 < A.size)
    (hn : {z | Below A.look R D s2 z}.ncard ≤ f + 1) :
    ∃ A1 A' D', A1 = (A.redirect s1 s2).addCounter s1 s2 ∧ merge (f + 1) A s1 s2 = some A' ∧ Same A A' ∧ A'.WF ∧
      Step R {z | Below A.look R D s2 z} A1.look (insert s2 D) A'.look D' ∧
      ∀ w z, run A.look s2 w = some z → ∃ z', run A'.look s1 w = some z' := by
  have hne := hK.ne
  have W1 : ((A.redirect s1 s2).addCounter s1 s2).WF := addCounter_wf (redirect_wf W hne ho hs1) s1 s2
  have S1 : Same A ((A.redirect s1 s2).addCounter s1 s2) := (redirect_same W hne).trans (addCounter_same _ s1 s2)
  generalize hA1 : (A.redirect s1 s2).addCounter s1 s2 = A1 at hK h1 W1 S1
  have F1 := hK.forest F
  -- the rows of `s2`
  have hrow : ∀ k, A1.look s2 k = A.look s2 k := by
    intro k
    rcases e : A.look s2 k with _ | ⟨c, t⟩
    · rw [hK.look, e]; rfl
    · exact (hK.kid F e).1
  have hfin := below_finite (R := R) (D := D) W hs2
  obtain ⟨A', D', hm, hsame, hW, hstep, hrun⟩ := mergeLoop_spec hrec s1 s2 {z | Below A.look R D s2 z}
    (keys (A1.node s2).acts A1.observations) A1 (insert s2 D) (keys_nodup (W1.nodup s2) W1.obsNodup) W1 F1 h1
    (S1.size ▸ hs1) (Set.mem_insert s2 D)
    (fun k _ c t e => by
      rw [hrow] at e
      obtain ⟨_, ho', hb⟩ := hK.kid F e
      have hsub : {z | Below A1.look R (insert s2 D) t z} ⊆ {z | Below A.look R D s2 z} :=
        fun z hz => hb.trans (hK.below_sub hz)
      refine ⟨ho', hsub, ?_⟩
      have hlt : {z | Below A1.look R (insert s2 D) t z}.ncard < {z | Below A.look R D s2 z}.ncard := by
        refine Set.ncard_lt_ncard ⟨hsub, fun hsup => ?_⟩ hfin
        exact (F1.below_live ho'.2.1 ho'.1 (hsup (show Below A.look R D s2 s2 from .refl))).2 (Set.mem_insert s2 D)
      omega)
    (fun k _ k' _ c c' t e e' => by
      rw [hrow] at e e'
      have htR : t ∉ R := (F.below_live hK.nred hK.live (hK.kid F e).2.2).1
      exact (F.uniq hK.live hK.live htR e e').2)
  refine ⟨A1, A', D', rfl, ?_, S1.trans hsame, hW, hstep, ?_⟩
  · rw [merge]
    simp only [hA1]
    exact hm
  · intro w z er
    cases w with
    | nil => exact ⟨s1, rfl⟩
    | cons k w =>
      obtain ⟨c, t, e, er⟩ := (run_cons _ _ _ _ _).1 er
      obtain ⟨e', ho', hb⟩ := hK.kid F e
      refine hrun k (look_key W1 e').1 c t w z e' ?_
      have hP : ∀ x, Below A.look R D t x → x ≠ s2 := by
        rintro x hx rfl
        -- a cycle: `s2` would have a tree predecessor
        rcases ReflTransGen.cases_tail hx with h | ⟨v, _, ev⟩
        · exact absurd (Set.mem_insert_iff.2 (Or.inl h.symm)) ho'.1
        · exact absurd (hK.preds v ev.2.1 ev.2.2).1 ev.1
      rw [run_congr (P := fun x => Below A.look R D t x) (L := A.look) ?_ ?_ w .refl]
      · exact er
      · intro x k c y hx e
        have hx' := F.below_live hK.nred hK.live (hb.trans hx)
        exact hx.tail ⟨hx'.1, hx'.2, k, c, e⟩
      · intro x hx k
        rcases e : A.look x k with _ | ⟨c, y⟩
        · rw [hK.look, e]; rfl
        · have hx' := F.below_live hK.nred hK.live (hb.trans hx)
          exact hK.keep e (hP y (hx.tail ⟨hx'.1, hx'.2, k, c, e⟩))

theorem look_redirect {A : Auto} (W : A.WF) {s1 s2 : ℕ} (hne : s1 ≠ s2) (ho : (A.node s1).obs = (A.node s2).obs) (x : ℕ) (k : Key) :
    ((A.redirect s1 s2).addCounter s1 s2).look x k = (A.look x k).map (sub s1 s2) := by
  rw [addCounter_look, redirect_look W hne ho]

/-- A recursive call of `merge`. -/
theorem merge_spec : ∀ (f : ℕ) (A : Auto) (D : Set ℕ) (s1 s2 : ℕ), A.WF → Forest A.look R D → Attached A.look R D s1 →
    Orphan A.look R D s2 → (A.node s1).obs = (A.node s2).obs → s1 < A.size → s2 < A.size → {z | Below A.look R D s2 z}.ncard ≤ f →
    ∃ A' D', merge f A s1 s2 = some A' ∧ Merged R A D s1 s2 A' D'
  | 0, A, D, s1, s2, W, F, h1, h2, ho, hs1, hs2, hn => by
    have hfin := below_finite (R := R) (D := D) W hs2
    have : 0 < {z | Below A.look R D s2 z}.ncard := (Set.ncard_pos hfin).2 ⟨s2, .refl⟩
    omega
  | f + 1, A, D, s1, s2, W, F, h1, h2, ho, hs1, hs2, hn => by
    have hb := h1.2 s2 h2
    have hne : s1 ≠ s2 := by rintro rfl; exact hb .refl
    have hK : Kill A.look R D s1 s2 ((A.redirect s1 s2).addCounter s1 s2).look :=
      ⟨h1, hb, h2.1, h2.2.1, fun x hx e => absurd e (h2.2.2 x hx), look_redirect W hne ho⟩
    have hst := hK.step F h2
    obtain ⟨A1, A', D', rfl, hm, hsame, hW, hstep, hrun⟩ := merge_rest (merge_spec f) W F hK (hst.att h1) ho hs1 hs2 hn
    exact ⟨A', D', hm, hsame, hW, hst.trans hstep, hstep.mono (Set.mem_insert s2 D), hrun⟩

/-- What a call of `merge` by the loop does, for a red state `r` and a blue state `b`. -/
structure MergedTop (R : Set ℕ) (A : Auto) (D : Set ℕ) (r b : ℕ) (A' : Auto) (D' : Set ℕ) : Prop where
  same : Same A A'
  wf : A'.WF
  forest : Forest A'.look R D'
  mono : D ⊆ D'
  mem : b ∈ D'
  dead : ∀ x ∈ D', x ∈ D ∨ Below A.look R D b x
  keep : ∀ {x k c y}, A.look x k = some (c, y) → y ∉ D' → A'.look x k = some (c, y)
  back : ∀ {x k c y}, x ∉ D' → A'.look x k = some (c, y) → A.look x k = some (c, y) ∨ Below A.look R D b y ∨ y = r
  run : ∀ x ∈ R, ∀ w z, run A.look x w = some z → ∃ z', run A'.look x w = some z'

/-- Words read before the states are merged, from a red state or a state that hangs below one: they are read afterwards. -/
theorem run_kill {L L1 L' : Graph} {D D' B : Set ℕ} {s1 s2 : ℕ} (F : Forest L R D) (hK : Kill L R D s1 s2 L1)
    (hst : Step R B L1 (insert s2 D) L' D') (hs1 : s1 ∈ R) (h2 : ∀ w z, run L s2 w = some z → ∃ z', run L' s1 w = some z') :
    ∀ (w : List Key) (x z : ℕ), Attached L1 R (insert s2 D) x → run L x w = some z → ∃ z', run L' x w = some z'
  | [], x, z, _, _ => ⟨x, rfl⟩
  | k :: w, x, z, hx, e => by
    obtain ⟨c, y, e1, e2⟩ := (run_cons _ _ _ _ _).1 e
    by_cases hy : y = s2
    · subst hy
      obtain ⟨z', hz'⟩ := h2 w z e2
      have e1' : L1 x k = some (c, s1) := by rw [hK.look, e1]; simp [sub]
      exact ⟨z', (run_cons _ _ _ _ _).2 ⟨c, s1, hst.keep e1' (hst.forest.red s1 hs1), hz'⟩⟩
    · have e1' := hK.keep e1 hy
      have hy' := (hK.forest F).attached_step hx ⟨k, c, e1'⟩
      obtain ⟨z', hz'⟩ := run_kill F hK hst hs1 h2 w y z hy' e2
      exact ⟨z', (run_cons _ _ _ _ _).2 ⟨c, y, hst.keep e1' (hst.att hy').1, hz'⟩⟩

/-- A call of `merge` by the loop. -/
theorem merge_top {f : ℕ} {A : Auto} {D : Set ℕ} {r b : ℕ} (W : A.WF) (F : Forest A.look R D) (hr : r ∈ R) (hb : b ∉ R) (hbD : b ∉ D)
    (hp : ∀ x, x ∉ D → Edge A.look x b → x ∈ R) (ho : (A.node r).obs = (A.node b).obs) (hrs : r < A.size) (hbs : b < A.size) (hf : A.size < f) :
    ∃ A' D', merge f A r b = some A' ∧ MergedTop R A D r b A' D' := by
  obtain ⟨f, rfl⟩ : ∃ g, f = g + 1 := ⟨f - 1, by omega⟩
  have hbr : ¬ Below A.look R D b r := fun h => (F.below_live hb hbD h).1 hr
  have hne : r ≠ b := fun h => hb (h ▸ hr)
  have hK : Kill A.look R D r b ((A.redirect r b).addCounter r b).look :=
    ⟨F.attached_red hr, hbr, hbD, hb, fun x hx e => ⟨hp x hx e, hr⟩, look_redirect W hne ho⟩
  have hn : {z | Below A.look R D b z}.ncard ≤ f + 1 := by
    have h1 : {z | Below A.look R D b z} ⊆ Set.Iio A.size := fun z hz => below_size W hbs hz
    have h2 := Set.ncard_le_ncard h1 (Set.finite_Iio A.size)
    have h3 : (Set.Iio A.size).ncard = A.size := by
      rw [Set.ncard_eq_toFinset_card', Set.toFinset_Iio, Nat.card_Iio]
    omega
  obtain ⟨A1, A', D', rfl, hm, hsame, hW, hstep, hrun⟩ := merge_rest (merge_spec f) W F hK ((hK.forest F).attached_red hr) ho hrs hbs hn
  refine ⟨A', D', hm, hsame, hW, hstep.forest, fun x hx => hstep.mono (Set.mem_insert_of_mem _ hx), hstep.mono (Set.mem_insert b D), ?_, ?_, ?_, ?_⟩
  · intro x hx
    rcases hstep.dead hx with (rfl | hx) | hx
    · exact Or.inr .refl
    · exact Or.inl hx
    · exact Or.inr hx
  · intro x k c y e hy
    exact hstep.keep (hK.keep e (fun h => hy (hstep.mono (h ▸ Set.mem_insert b D)))) hy
  · intro x k c y hx e
    rcases hstep.back hx e with e | e
    · rcases hK.cases e with ⟨_, e⟩ | ⟨e, _⟩
      · exact Or.inl e
      · exact Or.inr (Or.inr e)
    · exact Or.inr (Or.inl e)
  · intro x hx w z e
    exact run_kill F hK hstep hr hrun w x z ((hK.forest F).attached_red hx) e

end Jajapy.IOAlergia
