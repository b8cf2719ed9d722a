import Verif.Props.Renaming
import Verif.Props.BWCTMC

/-!
Properties C87 and C88, continuous-time Markov chains.
-/

set_option linter.unusedSectionVars false

namespace Jajapy

open Spec BW

/-! ### Timed traces -/

section traces
variable {A B : Type} (g : A → B)

theorem evens_map (l : List A) : TSet.evens (l.map g) = (TSet.evens l).map g := by
  induction l using TSet.evens.induct with
  | case1 => rfl
  | case2 => rfl
  | case3 x y rest ih => simp [TSet.evens, ih]

theorem odds_map (l : List A) : TSet.odds (l.map g) = (TSet.odds l).map g := by
  induction l using TSet.odds.induct with
  | case1 => rfl
  | case2 => rfl
  | case3 x y rest ih => simp [TSet.odds, ih]

variable {L L' : Type} (f : L → L') (a : ℝ)

/-- A step of a timed trace with another name for the label and another unit of time. -/
noncomputable def renameStep (p : Sym L × ℝ) : Sym L' × ℝ := (renameSym f a p.1, a * p.2)

theorem renameSym_injective (hf : Function.Injective f) (ha : a ≠ 0) : Function.Injective (renameSym f a) := by
  intro x y h
  cases x <;> cases y <;> simp only [renameSym, Sym.obs.injEq, Sym.time.injEq, reduceCtorEq] at h ⊢
  · exact hf h
  · exact mul_left_cancel₀ ha h

theorem mapM_val (l : List (Sym L)) :
    (l.map (renameSym f a)).mapM Sym.val = (l.mapM Sym.val).map (List.map (a * ·)) := by
  induction l with
  | nil => rfl
  | cons x l ih =>
    rw [List.map_cons, List.mapM_cons, List.mapM_cons, ih]
    cases x with
    | obs o => rfl
    | time t =>
      simp only [renameSym, Sym.val]
      cases l.mapM Sym.val <;> rfl

theorem splitTimed_rename (w : List (Sym L)) :
    splitTimed (w.map (renameSym f a)) = (splitTimed w).map (fun r => (r.1.map (renameStep f a), renameSym f a r.2)) := by
  unfold splitTimed
  dsimp only
  rw [evens_map, odds_map, List.getLast?_map, List.length_map, ← List.map_take, mapM_val]
  cases (TSet.evens w).getLast? with
  | none => rfl
  | some last =>
    simp only [Option.map_some]
    cases ((TSet.odds w).take ((TSet.evens w).length - 1)).mapM Sym.val with
    | error e => rfl
    | ok ts =>
      simp only [Except.map, bind, Except.bind, pure, Except.pure]
      rw [← List.map_dropLast, List.zip_map]
      rfl

theorem observations_rename (w : List (Sym L)) : observations (w.map (renameSym f a)) = (observations w).map f := by
  unfold observations
  rw [List.filterMap_map, List.map_filterMap]
  refine List.filterMap_congr (fun x _ => ?_)
  cases x <;> rfl

theorem waits_rename (w : List (Sym L)) : waits (w.map (renameSym f a)) = (waits w).map (a * ·) := by
  unfold waits
  rw [List.filterMap_map, List.map_filterMap]
  refine List.filterMap_congr (fun x _ => ?_)
  cases x <;> rfl

theorem timedSteps_rename (w : List (Sym L)) :
    timedSteps (w.map (renameSym f a)) = (timedSteps w).map (Prod.map f (a * ·)) := by
  unfold timedSteps
  rw [observations_rename, waits_rename, List.zip_map]

theorem isTimed_rename (w : List (Sym L)) (h : IsTimed w) : IsTimed (w.map (renameSym f a)) := by
  refine ⟨by rw [List.length_map]; exact h.1, fun k hk => ?_⟩
  rw [h.2 k (by simpa using hk), List.getElem_map]
  cases w[k]'(by simpa using hk) <;> simp [renameSym]

end traces

namespace CTMC
variable {L L' : Type} [DecidableEq L] [DecidableEq L'] {n : ℕ} {σ : Equiv.Perm (Fin n)} {f : L → L'} {a : ℝ} {M : CTMC ℝ L n}
  {M' : CTMC ℝ L' n}

theorem Renamed.e (h : Renamed σ f a M M') (s : Fin n) : M'.e s = M.e (σ s) / a := by
  unfold CTMC.e
  rw [Finset.sum_div]
  exact ((Equiv.sum_comp σ _).symm.trans (Finset.sum_congr rfl (fun s' _ => (h.matrix s s').symm))).symm

theorem Renamed.b (h : Renamed σ f a M M') (hf : Function.Injective f) (s : Fin n) (o : L) : M'.b s (f o) = M.b (σ s) o := by
  unfold CTMC.b
  simp only [h.labelling, hf.eq_iff]

theorem Renamed.tau (h : Renamed σ f a M M') (hf : Function.Injective f) (ha : a ≠ 0) (s ss : Fin n) (o : L) :
    M'.tau s ss (f o) = M.tau (σ s) (σ ss) o := by
  unfold CTMC.tau CTMC.l
  simp only [h.labelling, h.matrix, h.e, ne_eq, hf.eq_iff]
  split_ifs
  · rw [div_div_div_cancel_right₀ ha]
  · simp

theorem Renamed.tauTimed (h : Renamed σ f a M M') (hf : Function.Injective f) (ha : a ≠ 0) (s ss : Fin n) (p : Sym L × ℝ) :
    M'.tauTimed s ss (renameStep f a p) = a⁻¹ * M.tauTimed (σ s) (σ ss) p := by
  unfold CTMC.tauTimed renameStep
  have h1 : Sym.obs (M'.labelling s) ≠ renameSym f a p.1 ↔ Sym.obs (M.labelling (σ s)) ≠ p.1 := by
    rw [h.labelling, show Sym.obs (f (M.labelling (σ s))) = renameSym f a (Sym.obs (M.labelling (σ s))) from rfl,
      (renameSym_injective f a hf ha).ne_iff]
  have h2 : -(M'.e s) * (a * p.2) = -(M.e (σ s)) * p.2 := by rw [h.e]; field_simp
  dsimp only
  rw [h2]
  by_cases h3 : Sym.obs (M.labelling (σ s)) ≠ p.1
  · rw [if_pos h3, if_pos (h1.2 h3)]; ring
  · rw [if_neg h3, if_neg (fun hc => h3 (h1.1 hc)), h.matrix]; ring

theorem Renamed.maskTimed (h : Renamed σ f a M M') (hf : Function.Injective f) (ha : a ≠ 0) (o : Sym L) (s : Fin n) :
    M'.maskTimed (renameSym f a o) s = M.maskTimed o (σ s) := by
  have h1 : Sym.obs (M'.labelling s) = renameSym f a o ↔ Sym.obs (M.labelling (σ s)) = o := by
    rw [h.labelling, show Sym.obs (f (M.labelling (σ s))) = renameSym f a (Sym.obs (M.labelling (σ s))) from rfl,
      (renameSym_injective f a hf ha).eq_iff]
  unfold CTMC.maskTimed
  by_cases h2 : Sym.obs (M.labelling (σ s)) = o
  · rw [if_pos h2, if_pos (h1.2 h2)]
  · rw [if_neg h2, if_neg (fun hc => h2 (h1.1 hc))]

/-- C88: the expected waiting time of a state is expressed in the new unit, the density of a waiting time is per new unit. -/
theorem waiting_renamed (h : Renamed σ f a M M') (ha : 0 < a) (s : Fin n) :
    M'.expectedTime s = a * M.expectedTime (σ s) ∧ ∀ t, M'.lkl s (a * t) = M.lkl (σ s) t / a := by
  refine ⟨?_, fun t => ?_⟩
  · unfold expectedTime
    rw [h.e]
    rw [one_div_div, mul_one_div]
  · unfold lkl
    have h1 : a * t < 0 ↔ t < 0 := by rw [mul_neg_iff]; constructor
                                      · rintro (⟨_, h⟩ | ⟨h, _⟩)
                                        · exact h
                                        · exact absurd h ha.le.not_gt
                                      · exact fun h => Or.inl ⟨ha, h⟩
    rw [h.e]
    by_cases ht : t < 0
    · rw [if_pos ht, if_pos (h1.2 ht), zero_div]
    · rw [if_neg ht, if_neg (fun hc => ht (h1.1 hc))]
      rw [show -(M.e (σ s) / a) * (a * t) = -(M.e (σ s)) * t by field_simp]
      ring

/-- C87 and C88: the density of a timed trace is per new unit, once per waiting time. -/
theorem timedSum_renamed (h : Renamed σ f a M M') (hf : Function.Injective f) (ha : a ≠ 0) (w : List (Sym L)) :
    M'.timedSum (w.map (renameSym f a)) = (splitTimed w).bind (fun r => (M.timedSum w).map (fun p => a⁻¹ ^ r.1.length * p)) := by
  unfold timedSum
  rw [splitTimed_rename]
  cases splitTimed w with
  | error e => rfl
  | ok r =>
    simp only [Except.map, bind, Except.bind, pure, Except.pure]
    congr 1
    rw [Finset.mul_sum]
    refine ((Equiv.sum_comp σ _).symm.trans (Finset.sum_congr rfl (fun s _ => ?_))).symm
    rw [h.maskTimed hf ha]
    have := foldl_ren (h.tauTimed hf ha) r.1 1 M.initialState M'.initialState (by simpa using h.initial) s
    rw [one_mul] at this
    have e : (List.foldl (fun v p s => ∑ ss, v ss * M'.tauTimed ss s p) M'.initialState (List.map (renameStep f a) r.1)) s
      = a⁻¹ ^ r.1.length * (List.foldl (fun v p s => ∑ ss, v ss * M.tauTimed ss s p) M.initialState r.1) (σ s) := this
    rw [e, mul_assoc]

theorem density_renamed (h : Renamed σ f a M M') (hf : Function.Injective f) (ha : a ≠ 0) (w : List (Sym L)) :
    M'.density (w.map (renameSym f a)) = a⁻¹ ^ (timedSteps w).length * M.density w := by
  have ht : ∀ s ss o, M'.rateStep s ss (Prod.map f (a * ·) o) = a⁻¹ * M.rateStep (σ s) (σ ss) o := by
    intro s ss o
    have := h.tauTimed hf ha s ss (.obs o.1, o.2)
    rw [show ((Sym.obs o.1, o.2) : Sym L × ℝ) = symStep o from rfl, tauTimed_symStep] at this
    rw [← this, ← tauTimed_symStep]
    rfl
  unfold density
  rw [totalWeight_eq, totalWeight_eq, timedSteps_rename, Finset.mul_sum]
  refine ((Equiv.sum_comp σ _).symm.trans (Finset.sum_congr rfl (fun s _ => ?_))).symm
  rw [h.initial, beta0_ren ht (timedSteps w) (M.lastMask w) (M'.lastMask (w.map (renameSym f a)))]
  · ring
  · intro s
    unfold lastMask
    rw [observations_rename, List.getLast?_map, h.labelling]
    have : Option.map f (observations w).getLast? = some (f (M.labelling (σ s))) ↔ (observations w).getLast? = some (M.labelling (σ s)) := by
      rw [← Option.map_some (f := f), (Option.map_injective hf).eq_iff]
    by_cases hc : (observations w).getLast? = some (M.labelling (σ s))
    · rw [if_pos hc, if_pos (this.2 hc)]
    · rw [if_neg hc, if_neg (fun h => hc (this.1 h))]

/-- C87 and C88: the likelihood of untimed traces and of sets of untimed traces does not change. -/
theorem likelihood_renamed (h : Renamed σ f a M M') (hf : Function.Injective f) (ha : a ≠ 0) :
    (∀ w, M'.iface.seqProb (w.map f) = M.iface.seqProb w) ∧
    ∀ S : TSet L, (∀ cpus, M'.iface.logLikelihoodMultiproc cpus (renameSet f S) = M.iface.logLikelihoodMultiproc cpus S) :=
  ⟨Iface.seqProb_ren (h.tau hf ha) (h.b hf) h.initial, fun S cpus => Iface.multiproc_ren (h.tau hf ha) (h.b hf) h.initial cpus S⟩

theorem oneproc_renamed {L L' : Type} [LinearOrder L] [LinearOrder L'] {f : L → L'} {M : CTMC ℝ L n} {M' : CTMC ℝ L' n} (h : Renamed σ f a M M')
    (hf : Function.Injective f) (ha : a ≠ 0) (S : TSet L) (hlen : S.times.length = S.sequences.length) :
    M'.iface.logLikelihoodOneproc (renameSet f S) = M.iface.logLikelihoodOneproc S :=
  Iface.oneproc_ren (h.tau hf ha) h.initial S hlen

/-- C87, timed CTMC: the likelihood of a set of timed traces. -/
theorem logLikelihoodTimed_renamed (h : Renamed σ f 1 M M') (hf : Function.Injective f) (cpus : ℕ) (S : TSet (Sym L)) :
    M'.logLikelihoodTimed cpus (renameSet (renameSym f 1) S) = M.logLikelihoodTimed cpus S := by
  unfold logLikelihoodTimed
  by_cases hc : cpus < 2
  · rw [if_pos hc, if_pos hc]
  · rw [if_neg hc, if_neg hc]
    have : ((renameSet (renameSym f 1) S).sequences.zip (renameSet (renameSym f 1) S).times).mapM (fun p => M'.computeAlphasTimed p.1 p.2)
        = (S.sequences.zip S.times).mapM (fun p => M.computeAlphasTimed p.1 p.2) := by
      refine SameOutcome.eq ((mapM_same (Q := fun a b => b = a) (zip_renamed _ S) ?_).mono (fun a b h => ?_))
      · rintro p q rfl
        unfold computeAlphasTimed
        dsimp only
        rw [timedSum_renamed h hf one_ne_zero]
        unfold timedSum
        cases splitTimed p.1 with
        | error e => rfl
        | ok r => simp [Except.map, bind, Except.bind, SameOutcome, pure, Except.pure]
      · exact (List.forall₂_eq_eq_eq ▸ (List.Forall₂.imp (fun a b h => h.symm) h) : a = b).symm
    rw [this]
    rfl

/-! ### Learning -/

/-- The results of the workers agree: times are expressed in the new unit. -/
structure WorkSame (σ : Equiv.Perm (Fin n)) (a k : ℝ) (w w' : WorkCTMC n) : Prop where
  den : ∀ s, w'.den s = k * w.den (σ s)
  num : ∀ s ss, w'.num s ss = w.num (σ s) (σ ss)
  proba : ∃ j : ℕ, w'.proba = a⁻¹ ^ j * w.proba
  times : w'.times = w.times

theorem stepOf_renamed (h : Renamed σ f a M M') (ha : a ≠ 0) (processes : ℕ) (fixed fixed' : Fin n → Fin n → Bool)
    (hfx : ∀ s ss, fixed' s ss = fixed (σ s) (σ ss)) {res res' : Py (List (Option (WorkCTMC n)))}
    (hr : SameOutcome (List.Forall₂ (Option.Rel (WorkSame σ a a))) res res') :
    SameOutcome (fun x y => Renamed σ f a x.1 y.1 ∧ (a = 1 → y.2 = x.2 + 0)) (stepOf processes M fixed res) (stepOf processes M' fixed' res') := by
  unfold stepOf
  refine SameOutcome.bind hr (fun l l' hl => SameOutcome.bind (collect_same _ _ hl) (fun l l' hl => ?_))
  refine ⟨⟨fun s s' => ?_, h.labelling, h.initial⟩, fun ha1 => ?_⟩
  · simp only [updateCTMC, hfx]
    rw [sum_same a hl (g := fun w => w.den (σ s)) (fun a b hab => hab.den s),
      sum_same' hl (g := fun w => w.num (σ s) (σ s')) (fun a b hab => hab.num s s'), h.matrix]
    by_cases hd : (l.map (fun w => w.den (σ s))).sum = 0
    · simp only [hd, mul_zero, if_true]; ring
    · rw [if_neg (mul_ne_zero ha hd), if_neg hd]
      field_simp
  · subst ha1
    simp only [logLik, List.map_map, add_zero]
    refine sum_same' hl (fun a b hab => ?_)
    obtain ⟨j, hj⟩ := hab.proba
    simp [hj, hab.times]

/-- C87 and C88, one iteration from timed traces: the same exception, or the renamed model. -/
theorem step_renamed (hf : Function.Injective f) (ha : a ≠ 0) (processes : ℕ) (fixed fixed' : Fin n → Fin n → Bool)
    (hfx : ∀ s ss, fixed' s ss = fixed (σ s) (σ ss)) (S : TSet (Sym L)) (M : CTMC ℝ L n) (M' : CTMC ℝ L' n) (h : Renamed σ f a M M') :
    SameOutcome (fun x y => Renamed σ f a x.1 y.1 ∧ (a = 1 → y.2 = x.2 + 0)) (stepTimed processes fixed S M)
      (stepTimed processes fixed' (renameSet (renameSym f a) S) M') := by
  unfold stepTimed
  refine stepOf_renamed h ha processes fixed fixed' hfx (mapM_same (zip_renamed _ S) ?_)
  rintro p q rfl
  unfold processWorkTimed
  dsimp only
  rw [List.length_map, splitTimed_rename]
  by_cases h2 : p.1.length < 2
  · rw [if_pos h2, if_pos h2]; rfl
  rw [if_neg h2, if_neg h2]
  cases splitTimed p.1 with
  | error e => rfl
  | ok r =>
    simp only [Except.map]
    by_cases h3 : p.1.length % 2 = 0
    · rw [if_pos h3, if_pos h3]; rfl
    rw [if_neg h3, if_neg h3]
    have hp := lastSum_mask_ren (h.tauTimed hf ha) r.1 M.initialState M'.initialState h.initial (M.maskTimed r.2)
      (M'.maskTimed (renameSym f a r.2)) (h.maskTimed hf ha r.2)
    rw [hp]
    have hc : a⁻¹ ^ r.1.length ≠ 0 := pow_ne_zero _ (inv_ne_zero ha)
    by_cases h0 : lastSum (maskLast (M.maskTimed r.2) (alphas M.tauTimed M.initialState r.1)) = 0
    · simp only [h0, mul_zero, if_true]
      exact Option.Rel.none
    · rw [if_neg h0, if_neg (mul_ne_zero hc h0)]
      refine Option.Rel.some ⟨fun s => ?_, fun s ss => ?_, ⟨_, rfl⟩, rfl⟩
      · dsimp only
        rw [visits_mask, visits_mask]
        have := visits_ren (h.tauTimed hf ha) (fun x => x.2) (fun x => x.2) a 0 (fun o => by simp [renameStep])
          (p.2 / lastSum (maskLast (M.maskTimed r.2) (alphas M.tauTimed M.initialState r.1)))
          (p.2 / (a⁻¹ ^ r.1.length * lastSum (maskLast (M.maskTimed r.2) (alphas M.tauTimed M.initialState r.1)))) (M.maskTimed r.2)
          (M'.maskTimed (renameSym f a r.2)) (h.maskTimed hf ha r.2) r.1 s 1 M.initialState M'.initialState (by simpa using h.initial)
          (by field_simp)
        rw [this]
        ring
      · dsimp only
        rw [hfx]
        split_ifs
        · rfl
        · rw [uses_mask, uses_mask]
          exact uses_ren (h.tauTimed hf ha) _ _ (fun _ => rfl) _ _ (M.maskTimed r.2)
            (M'.maskTimed (renameSym f a r.2)) (h.maskTimed hf ha r.2) r.1 s ss 1 M.initialState M'.initialState (by simpa using h.initial)
            (by field_simp)

/-- C87, CTMC, learning from timed traces. -/
theorem fit_renamed (hf : Function.Injective f) (h : Renamed σ f 1 M M') (processes : ℕ) (fixed fixed' : Fin n → Fin n → Bool)
    (hfx : ∀ s ss, fixed' s ss = fixed (σ s) (σ ss)) (S : TSet (Sym L)) (epsilon : ℝ) (maxIt : ℕ) :
    SameOutcome (fun st st' => Renamed σ f 1 st.h st'.h ∧ st'.counter = st.counter ∧ st'.ll = st.ll)
      (fit (stepTimed processes fixed S) epsilon maxIt M) (fit (stepTimed processes fixed' (renameSet (renameSym f 1) S)) epsilon maxIt M') :=
  (fit_same (R := Renamed σ f 1) (c := 0) (fun M M' hM => (step_renamed hf one_ne_zero processes fixed fixed' hfx S M M' hM).mono
    (fun _ _ hx => ⟨hx.1, hx.2 rfl⟩)) epsilon maxIt h).mono (fun _ _ hl => ⟨hl.h, hl.counter, by rw [hl.ll]; simp⟩)

theorem step_renamed_untimed (hf : Function.Injective f) (processes : ℕ) (fixed fixed' : Fin n → Fin n → Bool)
    (hfx : ∀ s ss, fixed' s ss = fixed (σ s) (σ ss)) (S : TSet L) (M : CTMC ℝ L n) (M' : CTMC ℝ L' n) (h : Renamed σ f 1 M M') :
    SameOutcome (fun x y => Renamed σ f 1 x.1 y.1 ∧ ((1:ℝ) = 1 → y.2 = x.2 + 0)) (stepUntimed processes fixed S M)
      (stepUntimed processes fixed' (renameSet f S) M') := by
  have ht : ∀ s ss o, M'.tau s ss (f o) = 1 * M.tau (σ s) (σ ss) o := by simpa using h.tau hf one_ne_zero
  unfold stepUntimed
  refine stepOf_renamed h one_ne_zero processes fixed fixed' hfx (mapM_same (zip_renamed _ S) ?_)
  rintro p q rfl
  unfold processWorkUntimed
  dsimp only
  rw [List.length_map]
  by_cases h2 : p.1.length < 2
  · rw [if_pos h2, if_pos h2]; rfl
  rw [if_neg h2, if_neg h2]
  have hp := lastSum_ren ht p.1 M.initialState M'.initialState h.initial
  rw [one_pow, one_mul] at hp
  rw [hp]
  by_cases h0 : lastSum (alphas M.tau M.initialState p.1) = 0
  · rw [if_pos h0, if_pos h0]
    exact Option.Rel.none
  · rw [if_neg h0, if_neg h0]
    refine Option.Rel.some ⟨fun s => ?_, fun s ss => ?_, ⟨0, by simp⟩, rfl⟩
    · dsimp only
      have := visits_ren ht (fun _ => 1) (fun _ => 1) 1 0 (by simp) (p.2 / lastSum (alphas M.tau M.initialState p.1))
        (p.2 / lastSum (alphas M.tau M.initialState p.1)) (fun _ => 1) (fun _ => 1) (fun _ => rfl) p.1 s 1 M.initialState M'.initialState
        (by simpa using h.initial) (by simp)
      simpa using this
    · dsimp only
      rw [hfx]
      split_ifs
      · rfl
      · exact uses_ren ht (fun _ => 1) (fun _ => 1) (by simp) _ _ (fun _ => 1) (fun _ => 1) (fun _ => rfl) p.1 s ss 1 M.initialState
          M'.initialState (by simpa using h.initial) (by simp)

/-- C87, CTMC, learning from untimed traces. -/
theorem fit_renamed_untimed (hf : Function.Injective f) (h : Renamed σ f 1 M M') (processes : ℕ) (fixed fixed' : Fin n → Fin n → Bool)
    (hfx : ∀ s ss, fixed' s ss = fixed (σ s) (σ ss)) (S : TSet L) (epsilon : ℝ) (maxIt : ℕ) :
    SameOutcome (fun st st' => Renamed σ f 1 st.h st'.h ∧ st'.counter = st.counter ∧ st'.ll = st.ll)
      (fit (stepUntimed processes fixed S) epsilon maxIt M) (fit (stepUntimed processes fixed' (renameSet f S)) epsilon maxIt M') :=
  (fit_same (R := Renamed σ f 1) (c := 0) (fun M M' hM => (step_renamed_untimed hf processes fixed fixed' hfx S M M' hM).mono
    (fun _ _ hx => ⟨hx.1, hx.2 rfl⟩)) epsilon maxIt h).mono (fun _ _ hl => ⟨hl.h, hl.counter, by rw [hl.ll]; simp⟩)

/-- The number of waiting times in the traces that are possible, with their multiplicities. -/
noncomputable def waitCount (M : CTMC ℝ L n) (S : TSet (Sym L)) : ℝ := overSet S M.density (fun w => (timedSteps w).length)

theorem overSet_renamed (S : TSet (Sym L)) (h : Renamed σ f a M M') (hf : Function.Injective f) (ha : 0 < a) :
    overSet (renameSet (renameSym f a) S) M'.density (fun w => Real.log (M'.density w))
      = overSet S M.density (fun w => Real.log (M.density w)) - M.waitCount S * Real.log a := by
  have hd := density_renamed h hf ha.ne'
  have hz : ∀ w, M'.density (w.map (renameSym f a)) ≠ 0 ↔ M.density w ≠ 0 := by
    intro w
    rw [hd]
    simp [ha.ne']
  unfold waitCount overSet renameSet
  dsimp only
  rw [List.zip_map_left, List.filter_map, List.map_map]
  have e : (S.sequences.zip S.times).filter ((fun x : List (Sym L') × ℕ => decide (M'.density x.1 ≠ 0)) ∘ Prod.map (List.map (renameSym f a)) id)
      = (S.sequences.zip S.times).filter (fun x => decide (M.density x.1 ≠ 0)) :=
    List.filter_congr (fun x _ => by simp only [Function.comp, Prod.map]; rw [decide_eq_decide]; exact hz x.1)
  rw [e, ← List.sum_map_mul_right, eq_sub_iff_add_eq, ← List.sum_map_add]
  congr 1
  refine List.map_congr_left (fun x hx => ?_)
  have h0 : M.density x.1 ≠ 0 := by simpa using (List.mem_filter.1 hx).2
  simp only [Function.comp, Prod.map, id]
  rw [hd, Real.log_mul (pow_ne_zero _ (inv_ne_zero ha.ne')) h0, Real.log_pow, Real.log_inv]
  ring

/-- C88, CTMC, learning from timed traces: with the waiting times and the initial rates expressed in another unit, learning takes the same number of
iterations, the learned rates are the same in the new unit, and the reported values differ by the same constant at every iteration. -/
theorem fit_units (hf : Function.Injective f) (ha : 0 < a) (h : Renamed σ f a M M') (hM : M.Valid) (processes : ℕ) (fixed fixed' : Fin n → Fin n → Bool)
    (hfx : ∀ s ss, fixed' s ss = fixed (σ s) (σ ss)) (S : TSet (Sym L)) (hS : TimedSet S) (hw : WaitsNonneg S)
    (hlen : S.times.length = S.sequences.length) (ht : ∀ t ∈ S.times, 1 ≤ t) (epsilon : ℝ) (maxIt : ℕ) :
    SameOutcome (fun st st' => Renamed σ f a st.h st'.h ∧ st'.counter = st.counter ∧ st'.ll = st.ll.map (· - M.waitCount S * Real.log a))
      (fit (stepTimed processes fixed S) epsilon maxIt M) (fit (stepTimed processes fixed' (renameSet (renameSym f a) S)) epsilon maxIt M') := by
  have hS' : TimedSet (renameSet (renameSym f a) S) := by
    intro w hw
    obtain ⟨v, hv, rfl⟩ := List.mem_map.1 hw
    exact ⟨isTimed_rename f a v (hS v hv).1, by rw [List.length_map]; exact (hS v hv).2⟩
  refine (fit_same (R := fun M1 M1' => Renamed σ f a M1 M1' ∧ M1.Valid ∧ ∀ w ∈ S.sequences, M1.density w ≠ 0 ↔ M.density w ≠ 0)
    (c := -(M.waitCount S * Real.log a)) (fun M1 M1' hM1 => ?_) epsilon maxIt ⟨h, hM, fun _ _ => Iff.rfl⟩).mono
    (fun _ _ hl => ⟨hl.h.1, hl.counter, by rw [hl.ll]; simp [sub_eq_add_neg]⟩)
  obtain ⟨h1, h2, h3⟩ := hM1
  have key := step_renamed hf ha.ne' processes fixed fixed' hfx S M1 M1' h1
  cases hs : stepTimed processes fixed S M1 with
  | error e =>
    rw [hs] at key
    cases hs' : stepTimed processes fixed' (renameSet (renameSym f a) S) M1' with
    | error e' => rw [hs'] at key; exact key
    | ok y => rw [hs'] at key; exact absurd key (by simp [SameOutcome])
  | ok x =>
    rw [hs] at key
    cases hs' : stepTimed processes fixed' (renameSet (renameSym f a) S) M1' with
    | error e' => rw [hs'] at key; exact absurd key (by simp [SameOutcome])
    | ok y =>
      rw [hs'] at key
      obtain ⟨k1, -⟩ := key
      have m := (M1.bw_step_monotone processes fixed S x.1 x.2 h2 hS hw hlen ht hs).2.1
      refine ⟨⟨k1, M1.bw_step_valid processes fixed S x.1 x.2 h2 hS hw hs, fun w hw' => (m w hw').symm.trans (h3 w hw')⟩, ?_⟩
      rw [(M1.bw_update_spec processes fixed S x.1 x.2 hS hs).2.2.2.2, (M1'.bw_update_spec processes fixed' _ y.1 y.2 hS' hs').2.2.2.2,
        overSet_renamed S h1 hf ha, sub_eq_add_neg]
      congr 3
      unfold waitCount overSet
      congr 2
      refine List.filter_congr (fun x hx => ?_)
      rw [decide_eq_decide]
      exact h3 _ (List.of_mem_zip hx).1

end CTMC
end Jajapy
