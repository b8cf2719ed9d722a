import Verif.Lemmas.BWMDP
import Verif.Spec.CTMC

set_option linter.unusedSectionVars false

namespace Jajapy

open Finset Spec BW

/-! ### Reading the observations through a function -/

namespace BW
section
variable {K A O : Type} {n : ℕ} [Field K] (tau : Fin n → Fin n → O → K) (g : A → O)

theorem fwd_map (v : Fin n → K) (a : A) : fwd (fun s ss x => tau s ss (g x)) v a = fwd tau v (g a) := rfl

theorem alphas_map (v : Fin n → K) (os : List A) :
    alphas tau v (os.map g) = alphas (fun s ss x => tau s ss (g x)) v os := by
  induction os generalizing v with
  | nil => rfl
  | cons a os ih => simp only [List.map_cons, alphas]; rw [ih]; rfl

theorem betas_map (f : Fin n → K) (os : List A) :
    betas tau f (os.map g) = betas (fun s ss x => tau s ss (g x)) f os := by
  induction os with
  | nil => rfl
  | cons a os ih => simp only [List.map_cons, betas]; rw [ih]; rfl

theorem visits_map (φ : O → K) (c : K) (al be : List (Fin n → K)) (os : List A) (s : Fin n) :
    visits φ c al be (os.map g) s = visits (fun x => φ (g x)) c al be os s := by
  unfold visits
  rw [List.zip_map_right, List.map_map]
  rfl

theorem uses_map (φ : O → K) (c : K) (al be : List (Fin n → K)) (os : List A) (s ss : Fin n) :
    uses tau φ c al be (os.map g) s ss = uses (fun s ss x => tau s ss (g x)) (fun x => φ (g x)) c al be os s ss := by
  unfold uses
  rw [List.zip_map_right, List.map_map]
  rfl

end
end BW

/-! ### Timed traces in canonical form -/

section
variable {L : Type}

/-- The timed trace with the given steps and last observation. -/
def timed : List (L × ℝ) → L → List (Sym L)
  | [], last => [.obs last]
  | p :: rest, last => .obs p.1 :: .time p.2 :: timed rest last

theorem timed_length (ps : List (L × ℝ)) (last : L) : (timed ps last).length = 2 * ps.length + 1 := by
  induction ps with
  | nil => rfl
  | cons p ps ih => simp [timed, ih]; ring

theorem observations_timed (ps : List (L × ℝ)) (last : L) : observations (timed ps last) = ps.map Prod.fst ++ [last] := by
  induction ps with
  | nil => rfl
  | cons p ps ih => simp only [timed, observations, List.filterMap_cons] at ih ⊢; rw [ih]; rfl

theorem waits_timed (ps : List (L × ℝ)) (last : L) : waits (timed ps last) = ps.map Prod.snd := by
  induction ps with
  | nil => rfl
  | cons p ps ih => simp only [timed, waits, List.filterMap_cons] at ih ⊢; rw [ih]; rfl

theorem timedSteps_timed (ps : List (L × ℝ)) (last : L) : timedSteps (timed ps last) = ps := by
  unfold timedSteps
  rw [observations_timed, waits_timed]
  induction ps with
  | nil => rfl
  | cons p ps ih => simp [ih]

theorem isTimed_timed (ps : List (L × ℝ)) (last : L) : IsTimed (timed ps last) := by
  refine ⟨by rw [timed_length]; omega, ?_⟩
  induction ps with
  | nil => intro k h; simp [timed] at h; subst h; simp [timed]
  | cons p ps ih =>
    intro k h
    match k with
    | 0 => simp [timed]
    | 1 => simp [timed]
    | k + 2 =>
      have := ih k (by simp [timed] at h; omega)
      simp only [timed, List.getElem_cons_succ]
      rw [← this]; omega

theorem exists_timed (w : List (Sym L)) (h : IsTimed w) : ∃ ps last, w = timed ps last := by
  obtain ⟨h1, h2⟩ := h
  match w with
  | [] => simp at h1
  | [x] =>
    obtain ⟨o, ho⟩ := (h2 0 (by simp)).mp rfl
    exact ⟨[], o, by simp [timed, ← ho]⟩
  | x :: y :: rest =>
    obtain ⟨o, ho⟩ := (h2 0 (by simp)).mp rfl
    have hy : ∃ t, y = Sym.time t := by
      have := h2 1 (by simp)
      cases y with
      | obs o' => simp at this
      | time t => exact ⟨t, rfl⟩
    obtain ⟨t, rfl⟩ := hy
    obtain ⟨ps, last, hr⟩ := exists_timed rest ⟨by simp at h1; omega, fun k h => by
      have := h2 (k+2) (by simp; omega)
      simp only [List.getElem_cons_succ] at this
      rw [← this]; omega⟩
    refine ⟨(o, t) :: ps, last, ?_⟩
    simp at ho
    rw [timed, ← hr, ho]

theorem evens_timed (ps : List (L × ℝ)) (last : L) :
    TSet.evens (timed ps last) = (ps.map Prod.fst ++ [last]).map Sym.obs := by
  induction ps with
  | nil => rfl
  | cons p ps ih => simp only [timed, TSet.evens, ih]; rfl

theorem odds_timed (ps : List (L × ℝ)) (last : L) :
    TSet.odds (timed ps last) = (ps.map Prod.snd).map Sym.time := by
  induction ps with
  | nil => rfl
  | cons p ps ih => simp only [timed, TSet.odds, ih]; rfl

/-- A step as the code sees it. -/
def symStep (p : L × ℝ) : Sym L × ℝ := (.obs p.1, p.2)

theorem splitTimed_timed (ps : List (L × ℝ)) (last : L) :
    splitTimed (timed ps last) = .ok (ps.map symStep, .obs last) := by
  unfold splitTimed
  rw [evens_timed, odds_timed]
  have h1 : ((ps.map Prod.fst ++ [last]).map Sym.obs).getLast? = some (Sym.obs last) := by simp
  simp only [h1]
  have h2 : (((ps.map Prod.snd).map (Sym.time (L := L))).take ((ps.map Prod.fst ++ [last]).map Sym.obs).length.pred).mapM Sym.val
      = (.ok (ps.map Prod.snd) : Py (List ℝ)) := by
    rw [List.take_of_length_le (by simp)]
    rw [List.mapM_ok Sym.val (fun x => match x with | .time t => t | .obs _ => 0) _ (by
      intro x hx
      obtain ⟨t, _, rfl⟩ := List.mem_map.mp hx
      rfl)]
    simp [List.map_map, Function.comp_def]
  have h3 : ((ps.map Prod.fst ++ [last]).map (Sym.obs (L := L))).length - 1 = ((ps.map Prod.fst ++ [last]).map Sym.obs).length.pred := rfl
  rw [h3, h2]
  have h4 : ((ps.map Prod.fst ++ [last]).map Sym.obs).dropLast.zip (ps.map Prod.snd) = ps.map symStep := by
    rw [List.map_append]
    simp only [List.map_cons, List.map_nil, List.dropLast_concat]
    induction ps with
    | nil => rfl
    | cons p ps ih =>
      simp only [List.map_cons, List.zip_cons_cons]
      rw [ih (by simp) (by
        rw [List.take_of_length_le (by simp)]
        rw [List.mapM_ok Sym.val (fun x => match x with | .time t => t | .obs _ => 0) _ (by
          intro x hx
          obtain ⟨t, _, rfl⟩ := List.mem_map.mp hx
          rfl)]
        simp [List.map_map, Function.comp_def]) rfl]
      rfl
  rw [← h4]
  rfl

end

/-! ### Density -/

namespace CTMC
variable {L : Type} {n : ℕ} [DecidableEq L]

theorem tauTimed_symStep (M : CTMC ℝ L n) (s ss : Fin n) (p : L × ℝ) : M.tauTimed s ss (symStep p) = M.rateStep s ss p := by
  unfold tauTimed rateStep symStep e
  by_cases h : M.labelling s = p.1 <;> simp [h]

theorem maskTimed_eq (M : CTMC ℝ L n) (ps : List (L × ℝ)) (last : L) : M.maskTimed (.obs last) = M.lastMask (timed ps last) := by
  funext s
  unfold maskTimed lastMask
  rw [observations_timed]
  simp [eq_comm]

theorem timedSum_eq (M : CTMC ℝ L n) (w : List (Sym L)) (hw : IsTimed w) : M.timedSum w = .ok (M.density w) := by
  obtain ⟨ps, last, rfl⟩ := exists_timed w hw
  unfold timedSum density
  rw [splitTimed_timed, totalWeight_eq, timedSteps_timed]
  have : ∀ (v : Fin n → ℝ), ∑ s, ((ps.map symStep).foldl (fun v p => fun s => ∑ ss, v ss * M.tauTimed ss s p) v) s * M.lastMask (timed ps last) s
      = ∑ s, v s * beta0 M.rateStep (M.lastMask (timed ps last)) ps s := by
    generalize M.lastMask (timed ps last) = f
    induction ps with
    | nil => intro v; rfl
    | cons p ps ih =>
      intro v
      simp only [List.map_cons, List.foldl_cons]
      rw [ih (isTimed_timed _ _), beta0_cons]
      simp only [bwd, Finset.sum_mul, Finset.mul_sum, M.tauTimed_symStep]
      rw [Finset.sum_comm]
      exact Finset.sum_congr rfl (fun s _ => Finset.sum_congr rfl (fun ss _ => by ring))
  have := this M.initialState
  rw [← M.maskTimed_eq ps last] at this ⊢
  exact congrArg Except.ok this

theorem rateStep_nonneg (M : CTMC ℝ L n) (h : ∀ s s', 0 ≤ M.matrix s s') (s s' : Fin n) (p : L × ℝ) : 0 ≤ M.rateStep s s' p := by
  unfold rateStep
  split_ifs
  · exact mul_nonneg (h _ _) (Real.exp_pos _).le
  · exact le_refl _

theorem lastMask_nonneg (M : CTMC ℝ L n) (w : List (Sym L)) (s : Fin n) : 0 ≤ M.lastMask w s := by
  unfold lastMask
  split_ifs <;> norm_num

theorem density_nonneg (M : CTMC ℝ L n) (hM : M.Valid) (w : List (Sym L)) : 0 ≤ M.density w :=
  totalWeight_nonneg _ _ _ (M.rateStep_nonneg hM.2) hM.1 (M.lastMask_nonneg w) _

end CTMC

/-! ### One iteration on timed traces -/

section
variable {L : Type} {n : ℕ} [DecidableEq L]

/-- The result of one worker, without the test. -/
noncomputable def wkCT (M : CTMC ℝ L n) (fixed : Fin n → Fin n → Bool) (x : List (Sym L) × ℕ) : WorkCTMC n where
  den := vis M.rateStep M.initialState (M.lastMask x.1) (fun p => p.2) (x.2 / M.density x.1) (timedSteps x.1)
  num := fun s ss => if fixed s ss then 0
    else use M.rateStep M.initialState (M.lastMask x.1) (fun _ => 1) (x.2 / M.density x.1) (timedSteps x.1) s ss
  proba := M.density x.1
  times := x.2

theorem processWorkTimed_eq (M : CTMC ℝ L n) (fixed : Fin n → Fin n → Bool) (x : List (Sym L) × ℕ) (hw : IsTimed x.1)
    (hl : 2 ≤ x.1.length) :
    processWorkTimed M fixed x.1 x.2 = .ok (if M.density x.1 = 0 then none else some (wkCT M fixed x)) := by
  obtain ⟨w, t⟩ := x
  simp only at hw hl ⊢
  obtain ⟨ps, last, rfl⟩ := exists_timed w hw
  unfold processWorkTimed
  rw [if_neg (by omega), splitTimed_timed]
  simp only
  rw [if_neg (by rw [timed_length]; omega)]
  have ht : (fun s ss (p : L × ℝ) => M.tauTimed s ss (symStep p)) = M.rateStep := by
    funext s ss p; exact M.tauTimed_symStep s ss p
  rw [M.maskTimed_eq ps last]
  simp only [alphas_map, betas_map, ht, lastSum_maskLast]
  have hd : M.density (timed ps last) = totalWeight M.initialState M.rateStep (M.lastMask (timed ps last)) ps := by
    unfold CTMC.density; rw [timedSteps_timed]
  rw [hd]
  congr 1
  split_ifs with h0
  · rfl
  · congr 1
    unfold wkCT
    rw [hd]
    simp only [timedSteps_timed]
    congr 1
    · funext s
      simp only [vis, visits, maskLast_dropLast]
      rw [List.zip_map_right, List.map_map]
      rfl
    · funext s ss
      split_ifs
      · rfl
      · rw [uses_map, ht]
        simp only [use, uses, maskLast_dropLast]

/-- The possible entries of a set. -/
noncomputable def possCT (M : CTMC ℝ L n) (S : TSet (Sym L)) : List (List (Sym L) × ℕ) :=
  (S.sequences.zip S.times).filter (fun x => ¬ M.density x.1 = 0)

theorem mem_possCT (M : CTMC ℝ L n) (S : TSet (Sym L)) (x : List (Sym L) × ℕ) :
    x ∈ possCT M S ↔ x ∈ S.sequences.zip S.times ∧ M.density x.1 ≠ 0 := by
  unfold possCT
  rw [List.mem_filter]
  simp

/-- The expected time in `s`, and the expected numbers of uses. -/
noncomputable def denCT (M : CTMC ℝ L n) (S : TSet (Sym L)) (s : Fin n) : ℝ :=
  ((possCT M S).map (fun x => vis M.rateStep M.initialState (M.lastMask x.1) (fun p => p.2) (x.2 / M.density x.1) (timedSteps x.1) s)).sum
noncomputable def numCT (M : CTMC ℝ L n) (S : TSet (Sym L)) (s ss : Fin n) : ℝ :=
  ((possCT M S).map (fun x => use M.rateStep M.initialState (M.lastMask x.1) (fun _ => 1) (x.2 / M.density x.1) (timedSteps x.1) s ss)).sum

/-- The model after one iteration. -/
noncomputable def newCT (M : CTMC ℝ L n) (fixed : Fin n → Fin n → Bool) (S : TSet (Sym L)) : CTMC ℝ L n :=
  { M with matrix := fun s ss =>
      if fixed s ss then (if denCT M S s = 0 then 2 * M.matrix s ss else M.matrix s ss)
      else if denCT M S s = 0 then M.matrix s ss else numCT M S s ss / denCT M S s }

theorem stepTimed_eq (processes : ℕ) (fixed : Fin n → Fin n → Bool) (S : TSet (Sym L)) (M : CTMC ℝ L n)
    (hS : ∀ w ∈ S.sequences, IsTimed w ∧ 2 ≤ w.length) :
    stepTimed processes fixed S M = stepOf processes M fixed (.ok ((S.sequences.zip S.times).map
      (fun x => if M.density x.1 = 0 then none else some (wkCT M fixed x)))) := by
  unfold stepTimed
  have h : ∀ x ∈ S.sequences.zip S.times, (fun p : List (Sym L) × ℕ => processWorkTimed M fixed p.1 p.2) x
      = .ok ((fun x => if M.density x.1 = 0 then none else some (wkCT M fixed x)) x) := by
    intro x hx
    have h1 := hS _ (List.of_mem_zip hx).1
    beta_reduce
    rw [processWorkTimed_eq M fixed x h1.1 h1.2]
  rw [List.mapM_ok _ _ _ h]

theorem updateCT_eq (M : CTMC ℝ L n) (fixed : Fin n → Fin n → Bool) (S : TSet (Sym L)) :
    updateCTMC M fixed ((possCT M S).map (wkCT M fixed)) = newCT M fixed S := by
  unfold updateCTMC newCT
  simp only [CTMC.mk.injEq, and_true]
  funext s ss
  simp only [List.map_map]
  have h1 : ((possCT M S).map ((fun w : WorkCTMC n => w.den s) ∘ wkCT M fixed)).sum = denCT M S s := rfl
  rw [h1]
  by_cases hf : fixed s ss
  · have h2 : ((possCT M S).map ((fun w : WorkCTMC n => w.num s ss) ∘ wkCT M fixed)).sum = 0 := by
      apply List.sum_eq_zero
      intro a ha
      obtain ⟨x, _, rfl⟩ := List.mem_map.mp ha
      simp [wkCT, hf]
    rw [h2]
    simp only [hf, if_true]
    split_ifs <;> ring
  · have h2 : ((possCT M S).map ((fun w : WorkCTMC n => w.num s ss) ∘ wkCT M fixed)).sum = numCT M S s ss := by
      unfold numCT
      congr 1
      refine List.map_congr_left (fun x _ => ?_)
      simp [wkCT, hf]
    rw [h2, if_neg hf, if_neg hf]
    split_ifs <;> simp

theorem stepTimed_ok (processes : ℕ) (fixed : Fin n → Fin n → Bool) (S : TSet (Sym L)) (M M' : CTMC ℝ L n) (ll : ℝ)
    (hS : ∀ w ∈ S.sequences, IsTimed w ∧ 2 ≤ w.length) (h : stepTimed processes fixed S M = .ok (M', ll)) :
    M' = newCT M fixed S ∧ possCT M S ≠ [] ∧
    ll = ((possCT M S).map (fun x => Real.log (M.density x.1) * x.2)).sum := by
  rw [stepTimed_eq processes fixed S M hS] at h
  unfold stepOf at h
  have h' : (collect .typeError processes ((S.sequences.zip S.times).map
      (fun x => if M.density x.1 = 0 then none else some (wkCT M fixed x))) >>= fun temp =>
        (.ok (updateCTMC M fixed temp, logLik (temp.map (fun w => (w.proba, w.times)))) : Py _)) = .ok (M', ll) := h
  cases hc : collect .typeError processes ((S.sequences.zip S.times).map
      (fun x => if M.density x.1 = 0 then none else some (wkCT M fixed x))) with
  | error e => rw [hc] at h'; cases h'
  | ok temp =>
    rw [hc] at h'
    obtain ⟨h1, h2, _⟩ := collect_ok _ _ _ _ hc
    rw [filterMap_ite] at h1
    have h1' : temp = (possCT M S).map (wkCT M fixed) := h1
    have h'' : (updateCTMC M fixed temp, logLik (temp.map (fun w => (w.proba, w.times)))) = (M', ll) := by injection h'
    rw [h1', updateCT_eq] at h''
    injection h'' with ha hb
    refine ⟨ha.symm, fun h0 => h2 (by rw [h1', h0]; rfl), ?_⟩
    rw [← hb]
    unfold logLik
    simp only [List.map_map]
    rfl

/-! ### The gain of one iteration -/

theorem numCT_nonneg (M : CTMC ℝ L n) (hM : M.Valid) (S : TSet (Sym L)) (s ss : Fin n) : 0 ≤ numCT M S s ss := by
  refine sum_map_nonneg _ _ (fun x _ => ?_)
  exact use_nonneg _ _ _ (M.rateStep_nonneg hM.2) hM.1 (M.lastMask_nonneg _) _ _
    (div_nonneg (Nat.cast_nonneg _) (M.density_nonneg hM _)) _ (fun _ _ => zero_le_one) _ _

theorem denCT_eq_sum (M : CTMC ℝ L n) (S : TSet (Sym L)) (s : Fin n) :
    denCT M S s = ∑ ss, ((possCT M S).map (fun x => use M.rateStep M.initialState (M.lastMask x.1) (fun p => p.2)
      (x.2 / M.density x.1) (timedSteps x.1) s ss)).sum := by
  unfold denCT
  rw [sum_map_comm]
  congr 1
  exact List.map_congr_left (fun x _ => (sum_use _ _ _ _ _ _ _).symm)

/-- The waiting times of the set are not negative. -/
def WaitsNonneg (S : TSet (Sym L)) : Prop := ∀ w ∈ S.sequences, ∀ p ∈ timedSteps w, 0 ≤ p.2

theorem useTime_nonneg (M : CTMC ℝ L n) (hM : M.Valid) (S : TSet (Sym L)) (hw : WaitsNonneg S) (s ss : Fin n) :
    0 ≤ ((possCT M S).map (fun x => use M.rateStep M.initialState (M.lastMask x.1) (fun p => p.2)
      (x.2 / M.density x.1) (timedSteps x.1) s ss)).sum := by
  refine sum_map_nonneg _ _ (fun x hx => ?_)
  exact use_nonneg _ _ _ (M.rateStep_nonneg hM.2) hM.1 (M.lastMask_nonneg _) _ _
    (div_nonneg (Nat.cast_nonneg _) (M.density_nonneg hM _)) _
    (fun o ho => hw _ (List.of_mem_zip ((mem_possCT M S x).mp hx).1).1 o ho) _ _

theorem denCT_nonneg (M : CTMC ℝ L n) (hM : M.Valid) (S : TSet (Sym L)) (hw : WaitsNonneg S) (s : Fin n) : 0 ≤ denCT M S s := by
  rw [denCT_eq_sum]
  exact Finset.sum_nonneg (fun ss _ => useTime_nonneg M hM S hw s ss)

theorem numCT_zero (M : CTMC ℝ L n) (S : TSet (Sym L)) (s ss : Fin n) (h : M.matrix s ss = 0) : numCT M S s ss = 0 := by
  unfold numCT
  rw [List.sum_eq_zero]
  intro a ha
  obtain ⟨x, _, rfl⟩ := List.mem_map.mp ha
  refine use_zero _ _ _ _ _ _ _ _ (fun o _ => ?_)
  unfold CTMC.rateStep
  rw [h, zero_mul, ite_self]

theorem newCT_valid (M : CTMC ℝ L n) (hM : M.Valid) (fixed : Fin n → Fin n → Bool) (S : TSet (Sym L)) (hw : WaitsNonneg S) :
    (newCT M fixed S).Valid := by
  refine ⟨hM.1, fun s ss => ?_⟩
  have := hM.2 s ss
  simp only [newCT]
  split_ifs
  · linarith
  · exact this
  · exact this
  · exact div_nonneg (numCT_nonneg M hM S s ss) (denCT_nonneg M hM S hw s)

theorem newCT_gain (M : CTMC ℝ L n) (hM : M.Valid) (fixed : Fin n → Fin n → Bool) (S : TSet (Sym L)) (hw : WaitsNonneg S)
    (ht : ∀ t ∈ S.times, 1 ≤ t) :
    (∀ x ∈ possCT M S, 0 < (newCT M fixed S).density x.1) ∧
    ((possCT M S).map (fun x => Real.log (M.density x.1) * x.2)).sum ≤
    ((possCT M S).map (fun x => Real.log ((newCT M fixed S).density x.1) * x.2)).sum := by
  set N := newCT M fixed S with hN
  have hV := newCT_valid M hM fixed S hw
  rw [← hN] at hV
  have hnn := numCT_nonneg M hM S
  have hd := denCT_nonneg M hM S hw
  have hposs : ∀ x ∈ possCT M S, M.density x.1 ≠ 0 ∧ x.2 ∈ S.times ∧ x.1 ∈ S.sequences := by
    intro x hx
    obtain ⟨h1, h2⟩ := (mem_possCT M S x).mp hx
    exact ⟨h2, (List.of_mem_zip h1).2, (List.of_mem_zip h1).1⟩
  have hrate : ∀ s ss, 0 < M.matrix s ss → 0 < numCT M S s ss → 0 < N.matrix s ss := by
    intro s ss h1 h2
    simp only [hN, newCT]
    split_ifs with h3 h4 h5
    · linarith
    · exact h1
    · exact h1
    · exact div_pos h2 (lt_of_le_of_ne (hd s) (Ne.symm h5))
  have hpos_of : ∀ s ss (o : L × ℝ), 0 < M.rateStep s ss o → M.labelling s = o.1 ∧ 0 < M.matrix s ss := by
    intro s ss o h
    unfold CTMC.rateStep at h
    split_ifs at h with hl
    · exact ⟨hl, pos_of_mul_pos_left h (Real.exp_pos _).le⟩
    · exact absurd h (lt_irrefl _)
  have key := em_total (possCT M S) (fun x => timedSteps x.1) (fun x => M.lastMask x.1) (fun x => (x.2 : ℝ))
    (fun x => M.density x.1) (fun x => N.density x.1)
    M.rateStep N.rateStep M.initialState M.initialState (M.rateStep_nonneg hM.2) (N.rateStep_nonneg hV.2)
    (fun x _ => M.lastMask_nonneg x.1) hM.1 hM.1
    (fun x hx => by unfold CTMC.density; rw [totalWeight_eq])
    (fun x hx => by unfold CTMC.density; rw [totalWeight_eq]; rfl)
    (fun x hx => lt_of_le_of_ne (M.density_nonneg hM _) (hposs x hx).1.symm)
    (fun x hx => by have := ht _ (hposs x hx).2.1; exact_mod_cast this)
    (by
      intro s ss x hx o ho hpos hu
      obtain ⟨e1, e2⟩ := hpos_of s ss o hpos
      have h1 : 0 < numCT M S s ss := hu (fun _ => 1) (fun _ _ _ _ => zero_le_one) zero_lt_one
      have h2 := hrate s ss e2 h1
      unfold CTMC.rateStep
      have : N.labelling = M.labelling := rfl
      rw [this, if_pos e1]
      exact mul_pos h2 (Real.exp_pos _))
    (by
      intro s hs
      rcases (hM.1 s).eq_or_lt with h | h
      · rw [← h] at hs; simp at hs
      · exact h)
  refine ⟨key.1, ?_⟩
  have hz : ∀ x : ℝ, Real.log (x / x) = 0 := by
    intro x
    by_cases h : x = 0
    · simp [h]
    · simp [div_self h]
  have k2 := key.2
  simp only [hz, mul_zero, Finset.sum_const_zero, zero_add] at k2
  -- the exponential part and the rate part of the gain
  have hgain : 0 ≤ ∑ s, ∑ ss, ((possCT M S).map (fun y => use M.rateStep M.initialState (M.lastMask y.1)
      (fun o => Real.log (N.rateStep s ss o / M.rateStep s ss o))
      ((y.2 : ℝ) / M.density y.1) (timedSteps y.1) s ss)).sum := by
    refine Finset.sum_nonneg (fun s _ => ?_)
    have e : ∀ ss, ((possCT M S).map (fun y => use M.rateStep M.initialState (M.lastMask y.1)
        (fun o => Real.log (N.rateStep s ss o / M.rateStep s ss o))
        ((y.2 : ℝ) / M.density y.1) (timedSteps y.1) s ss)).sum
        = Real.log (N.matrix s ss / M.matrix s ss) * numCT M S s ss
          + ((∑ j, M.matrix s j) - ∑ j, N.matrix s j) *
            ((possCT M S).map (fun x => use M.rateStep M.initialState (M.lastMask x.1) (fun p => p.2)
              (x.2 / M.density x.1) (timedSteps x.1) s ss)).sum := by
      intro ss
      rcases (hnn s ss).eq_or_lt with h0 | hpos
      · -- the transition is never used
        have hzero : ∀ φ : L × ℝ → ℝ, ∀ y ∈ possCT M S, use M.rateStep M.initialState (M.lastMask y.1) φ
            ((y.2 : ℝ) / M.density y.1) (timedSteps y.1) s ss = 0 := by
          intro φ y hy
          have hone : use M.rateStep M.initialState (M.lastMask y.1) (fun _ => 1)
            ((y.2 : ℝ) / M.density y.1) (timedSteps y.1) s ss = 0 := by
            by_contra hne
            have hge := use_nonneg _ _ _ (M.rateStep_nonneg hM.2) hM.1 (M.lastMask_nonneg y.1) (fun _ => 1)
              ((y.2 : ℝ) / M.density y.1) (div_nonneg (Nat.cast_nonneg _) (M.density_nonneg hM _)) (timedSteps y.1)
              (fun _ _ => zero_le_one) s ss
            have := sum_map_pos (possCT M S) (fun x => use M.rateStep M.initialState (M.lastMask x.1) (fun _ => 1)
              ((x.2 : ℝ) / M.density x.1) (timedSteps x.1) s ss) (fun x _ => use_nonneg _ _ _ (M.rateStep_nonneg hM.2) hM.1
                (M.lastMask_nonneg _) _ _ (div_nonneg (Nat.cast_nonneg _) (M.density_nonneg hM _)) _ (fun _ _ => zero_le_one) _ _)
              y hy (lt_of_le_of_ne hge (Ne.symm hne))
            exact absurd h0 (ne_of_lt this)
          exact use_zero_of_one _ _ _ (M.rateStep_nonneg hM.2) hM.1 (M.lastMask_nonneg y.1) _
            (div_nonneg (Nat.cast_nonneg _) (M.density_nonneg hM _)) _ _ _ hone φ
        rw [List.sum_eq_zero, List.sum_eq_zero, ← h0, mul_zero, mul_zero, add_zero]
        · intro a ha
          obtain ⟨y, hy, rfl⟩ := List.mem_map.mp ha
          exact hzero _ y hy
        · intro a ha
          obtain ⟨y, hy, rfl⟩ := List.mem_map.mp ha
          exact hzero _ y hy
      · unfold numCT
        rw [← sum_map_mul, ← sum_map_mul, ← List.sum_map_add]
        congr 1
        refine List.map_congr_left (fun y hy => ?_)
        rw [← use_smul, ← use_smul, ← use_add]
        refine use_congr _ _ _ _ _ _ _ _ _ (fun o _ ho => ?_)
        obtain ⟨e1, e2⟩ := hpos_of s ss o (lt_of_le_of_ne (M.rateStep_nonneg hM.2 _ _ _) ho.symm)
        have h2 := hrate s ss e2 hpos
        have hl : N.labelling = M.labelling := rfl
        unfold CTMC.rateStep
        rw [hl, if_pos e1, if_pos e1, Real.log_div (mul_pos h2 (Real.exp_pos _)).ne' (mul_pos e2 (Real.exp_pos _)).ne',
          Real.log_mul h2.ne' (Real.exp_pos _).ne', Real.log_mul e2.ne' (Real.exp_pos _).ne', Real.log_exp, Real.log_exp,
          Real.log_div h2.ne' e2.ne']
        ring
    rw [Finset.sum_congr rfl (fun ss _ => e ss), Finset.sum_add_distrib, ← Finset.mul_sum, ← denCT_eq_sum]
    by_cases h0 : denCT M S s = 0
    · rw [h0, mul_zero, add_zero]
      refine Finset.sum_nonneg (fun ss _ => mul_nonneg ?_ (hnn s ss))
      rcases (hM.2 s ss).eq_or_lt with hm | hm
      · rw [← hm]; simp
      · apply Real.log_nonneg
        rw [le_div_iff₀ hm, one_mul]
        simp only [hN, newCT, h0, if_true]
        split_ifs <;> linarith
    · have hdp : 0 < denCT M S s := lt_of_le_of_ne (hd s) (Ne.symm h0)
      have hterm : ∀ ss, denCT M S s * (N.matrix s ss - M.matrix s ss)
          ≤ Real.log (N.matrix s ss / M.matrix s ss) * numCT M S s ss := by
        intro ss
        by_cases hf : fixed s ss
        · have : N.matrix s ss = M.matrix s ss := by simp only [hN, newCT, hf, h0, if_true, if_false]
          rw [this, hz, sub_self, mul_zero, zero_mul]
        · have hv : N.matrix s ss = numCT M S s ss / denCT M S s := by
            simp only [hN, newCT, h0, if_false, if_neg hf]
          rcases (hnn s ss).eq_or_lt with hn0 | hnp
          · rw [hv, ← hn0, zero_div, zero_sub, mul_zero]
            have := mul_nonneg (hd s) (hM.2 s ss)
            linarith
          · have hmp : 0 < M.matrix s ss := by
              rcases (hM.2 s ss).eq_or_lt with hm | hm
              · rw [numCT_zero M S s ss hm.symm] at hnp; exact absurd hnp (lt_irrefl _)
              · exact hm
            have hr : 0 < N.matrix s ss / M.matrix s ss := div_pos (by rw [hv]; exact div_pos hnp hdp) hmp
            have hlog := Real.one_sub_inv_le_log_of_pos hr
            have := mul_le_mul_of_nonneg_right hlog hnp.le
            refine le_trans (le_of_eq ?_) this
            rw [hv]
            field_simp
      have hs := Finset.sum_le_sum (fun ss (_ : ss ∈ Finset.univ) => hterm ss)
      rw [← Finset.mul_sum, Finset.sum_sub_distrib] at hs
      have hr : ((∑ j, M.matrix s j) - ∑ j, N.matrix s j) * denCT M S s
        = - (denCT M S s * (∑ ss, N.matrix s ss - ∑ ss, M.matrix s ss)) := by ring
      linarith
  linarith

end
end Jajapy
