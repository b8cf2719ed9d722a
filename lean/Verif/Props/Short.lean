import Verif.Lemmas.Short
import Verif.Props.FoldingMDP
import Verif.Props.FoldingGo
import Verif.Props.NearCTMC
import Verif.Props.NearMDP
import Verif.Props.NearHMM

/-!
Property C111: short traces tell models apart.
-/

set_option linter.unusedSectionVars false
set_option autoImplicit false

namespace Jajapy

open Spec BW

/-! ### The abstract class -/

namespace Iface

theorem seqProb_snoc {K O : Type} [Field K] {n : ℕ} (M : Iface K O n) (os : List O) (last : O) :
    M.seqProb (os ++ [last]) = .ok (∑ s, os.foldl (fwd M.tau) M.init s * M.b s last) := by
  have key : ∀ (os : List O) (o : O) (v : Fin n → K), M.seqLoop v o (os ++ [last]) = fun s => (o :: os).foldl (fwd M.tau) v s * M.b s last := by
    intro os
    induction os with
    | nil =>
      intro o v
      rfl
    | cons o' os ih =>
      intro o v
      rw [List.cons_append, seqLoop, ih]
      rfl
  cases os with
  | nil => rfl
  | cons o os =>
    rw [List.cons_append, seqProb, key]

variable {K O : Type} [Field K] {m n : ℕ} {M : Iface K O m} {M' : Iface K O n}

/-- Without any condition on the models: traces with at most `m + n` symbols. -/
theorem agree_of_short (h : ∀ w, w.length ≤ m + n → M.seqProb w = M'.seqProb w) (w : List O) : M.seqProb w = M'.seqProb w := by
  induction w using List.reverseRecOn with
  | nil => rfl
  | append_singleton os last _ =>
    rw [seqProb_snoc, seqProb_snoc]
    congr 1
    refine BW.agree_of_short M.tau M'.tau _ _ (fun s => M.b s last) (fun s => M'.b s last) (fun w hw => ?_) os
    have := h (w ++ [last]) (by simpa using hw)
    rw [seqProb_snoc, seqProb_snoc] at this
    exact Except.ok.inj this

/-- With rows of sum 1: traces with fewer than `m + n` symbols, and also the sums of the forward tables. -/
theorem agree_of_shorter (a : Fin m → Fin m → K) (a' : Fin n → Fin n → K) (ht : ∀ s t o, M.tau s t o = a s t * M.b s o)
    (ht' : ∀ s t o, M'.tau s t o = a' s t * M'.b s o) (ha : ∀ s, ∑ t, a s t = 1) (ha' : ∀ s, ∑ t, a' s t = 1)
    (hi : ∑ s, M.init s = ∑ s, M'.init s) (h : ∀ w, w.length < m + n → M.seqProb w = M'.seqProb w) :
    (∀ w : List O, ∑ s, w.foldl M.fwdStep M.init s = ∑ s, w.foldl M'.fwdStep M'.init s) ∧ ∀ w, M.seqProb w = M'.seqProb w := by
  have key : ∀ w : List O, ∑ s, w.foldl M.fwdStep M.init s = ∑ s, w.foldl M'.fwdStep M'.init s := by
    intro w
    have := BW.agree_of_short M.tau M'.tau M.init M'.init (fun _ => 1) (fun _ => 1) (fun w hw => ?_) w
    · simp only [mul_one] at this
      exact this
    · simp only [mul_one]
      cases w with
      | nil => exact hi
      | cons o os =>
        have h1 := h (o :: os) hw
        rw [seqProb, seqProb] at h1
        have e := M.foldl_sum_eq_seqLoop a ht ha o os M.init
        have e' := M'.foldl_sum_eq_seqLoop a' ht' ha' o os M'.init
        exact e.trans ((Except.ok.inj h1).trans e'.symm)
  refine ⟨key, fun w => ?_⟩
  cases w with
  | nil => rfl
  | cons o os =>
    rw [seqProb, seqProb, ← M.foldl_sum_eq_seqLoop a ht ha, ← M'.foldl_sum_eq_seqLoop a' ht' ha', key]

end Iface

namespace Iface
variable {O : Type} {m n : ℕ} {M : Iface ℝ O m} {M' : Iface ℝ O n}

theorem multiproc_congr (h : ∀ w, M.seqProb w = M'.seqProb w) (cpus : ℕ) (S : TSet O) :
    M.logLikelihoodMultiproc cpus S = M'.logLikelihoodMultiproc cpus S := by
  have : (fun p : List O × ℕ => M.computeAlphas p.1 p.2) = fun p => M'.computeAlphas p.1 p.2 := by
    funext p
    unfold computeAlphas
    rw [h]
  unfold logLikelihoodMultiproc
  rw [this]

theorem oneproc_congr [LinearOrder O] (h : ∀ w : List O, ∑ s, w.foldl M.fwdStep M.init s = ∑ s, w.foldl M'.fwdStep M'.init s)
    (S : TSet O) (hlen : S.times.length = S.sequences.length) : M.logLikelihoodOneproc S = M'.logLikelihoodOneproc S := by
  by_cases h0 : S.sequences = []
  · have e1 : ∀ {n : ℕ} (M : Iface ℝ O n), M.logLikelihoodOneproc S = .error .indexError := by
      intro n M
      have : S.sort.sequences = [] := by
        unfold TSet.sort
        simp [h0]
      unfold logLikelihoodOneproc
      dsimp only
      rw [this]
    rw [e1, e1]
  · rw [M.oneproc_eq (fun w => ∑ s, w.foldl M.fwdStep M.init s) S h0 hlen (fun _ _ => rfl),
      M'.oneproc_eq (fun w => ∑ s, w.foldl M'.fwdStep M'.init s) S h0 hlen (fun _ _ => rfl), funext h]

end Iface

/-! ### Markov chains -/

namespace MC
variable {L : Type} [DecidableEq L] {m n : ℕ} {M : MC ℝ L m} {M' : MC ℝ L n}

theorem seqProb_lik (M : MC ℝ L m) (w : List L) (hw : w ≠ []) : M.iface.seqProb w = .ok (M.lik w) := M.seqProb_eq_paths w hw

/-- C111, Markov chains: two chains with `m` and `n` states that give the same probability to all the traces with fewer than `m + n` symbols give the
same probability to all traces, and the same log-likelihood to all sets. -/
theorem agree_of_short (hM : M.Stochastic) (hM' : M'.Stochastic) (h : ∀ w, w ≠ [] → w.length < m + n → M.lik w = M'.lik w) :
    (∀ w, w ≠ [] → M.lik w = M'.lik w) ∧ ∀ (S : TSet L) (cpus : ℕ), M.iface.logLikelihoodMultiproc cpus S = M'.iface.logLikelihoodMultiproc cpus S := by
  have key := (Iface.agree_of_shorter (M := M.iface) (M' := M'.iface) M.matrix M'.matrix M.tau_factor M'.tau_factor hM.2.2.2 hM'.2.2.2
    (hM.2.1.trans hM'.2.1.symm) (fun w hw => by
      by_cases h0 : w = []
      · subst h0
        rfl
      · rw [M.seqProb_lik w h0, M'.seqProb_lik w h0, h w h0 hw])).2
  refine ⟨fun w hw => ?_, fun S cpus => Iface.multiproc_congr key cpus S⟩
  have := key w
  rw [M.seqProb_lik w hw, M'.seqProb_lik w hw] at this
  exact Except.ok.inj this

end MC

theorem MC.agree_oneproc_of_short {L : Type} [LinearOrder L] {m n : ℕ} {M : MC ℝ L m} {M' : MC ℝ L n} (hM : M.Stochastic) (hM' : M'.Stochastic)
    (h : ∀ w, w ≠ [] → w.length < m + n → M.lik w = M'.lik w) (S : TSet L) (hlen : S.times.length = S.sequences.length) :
    M.iface.logLikelihoodOneproc S = M'.iface.logLikelihoodOneproc S :=
  Iface.oneproc_congr (Iface.agree_of_shorter (M := M.iface) (M' := M'.iface) M.matrix M'.matrix M.tau_factor M'.tau_factor hM.2.2.2 hM'.2.2.2
    (hM.2.1.trans hM'.2.1.symm) (fun w hw => by
      by_cases h0 : w = []
      · subst h0
        rfl
      · rw [M.seqProb_lik w h0, M'.seqProb_lik w h0, h w h0 hw])).1 S hlen

/-! ### Hidden Markov models -/

namespace HMM
variable {L : Type} [DecidableEq L] {m n : ℕ} {M : HMM ℝ L m} {M' : HMM ℝ L n}

theorem seqProb_lik (M : HMM ℝ L m) (hn : M.alphabet.Nodup) (w : List L) (hw : w ≠ []) : M.iface.seqProb w = .ok (M.lik w) := by
  have hb : M.b = M.emit := by
    funext s o
    exact M.b_eq_emit hn s o
  rw [M.seqProb_eq_paths w hw, hb]
  rfl

/-- C111, hidden Markov models. -/
theorem agree_of_short (hn : M.alphabet.Nodup) (hn' : M'.alphabet.Nodup) (hM : M.Stochastic) (hM' : M'.Stochastic)
    (h : ∀ w, w ≠ [] → w.length < m + n → M.lik w = M'.lik w) :
    (∀ w, w ≠ [] → M.lik w = M'.lik w) ∧ ∀ (S : TSet L) (cpus : ℕ), M.iface.logLikelihoodMultiproc cpus S = M'.iface.logLikelihoodMultiproc cpus S := by
  have key := (Iface.agree_of_shorter (M := M.iface) (M' := M'.iface) M.matrix M'.matrix M.tau_factor M'.tau_factor hM.2.2.2.1 hM'.2.2.2.1
    (hM.2.1.trans hM'.2.1.symm) (fun w hw => by
      by_cases h0 : w = []
      · subst h0
        rfl
      · rw [M.seqProb_lik hn w h0, M'.seqProb_lik hn' w h0, h w h0 hw])).2
  refine ⟨fun w hw => ?_, fun S cpus => Iface.multiproc_congr key cpus S⟩
  have := key w
  rw [M.seqProb_lik hn w hw, M'.seqProb_lik hn' w hw] at this
  exact Except.ok.inj this

end HMM

/-! ### Hidden Markov models with Gaussian observations -/

namespace GoHMM
variable {d m n : ℕ} {M : GoHMM m d} {M' : GoHMM n d}

/-- C111, Gaussian observations: the densities of the sequences with at most `m + n` vectors. -/
theorem agree_of_short (hM : M.Valid) (hM' : M'.Valid) (h : ∀ w, w ≠ [] → w.length ≤ m + n → M.lik w = M'.lik w) :
    (∀ w, w ≠ [] → M.lik w = M'.lik w) ∧
      ∀ (S : TSet (Fin d → ℝ)) (cpus : ℕ), M.iface.logLikelihoodMultiproc cpus S = M'.iface.logLikelihoodMultiproc cpus S := by
  have e : ∀ {n : ℕ} {M : GoHMM n d}, M.Valid → ∀ w, w ≠ [] → M.iface.seqProb w = .ok (M.lik w) :=
    fun hM w hw => GoHMM.seqProb_eq_paths _ hM.2.2.2.2 w hw
  have key := Iface.agree_of_short (M := M.iface) (M' := M'.iface) (fun w hw => by
      by_cases h0 : w = []
      · subst h0
        rfl
      · rw [e hM w h0, e hM' w h0, h w h0 hw])
  refine ⟨fun w hw => ?_, fun S cpus => Iface.multiproc_congr key cpus S⟩
  have := key w
  rw [e hM w hw, e hM' w hw] at this
  exact Except.ok.inj this

end GoHMM

/-! ### Markov decision processes -/

theorem BW.totalWeight_foldl {K O : Type} [Field K] {n : ℕ} (tau : Fin n → Fin n → O → K) (v g : Fin n → K) (ps : List O) :
    totalWeight v tau g ps = ∑ s, ps.foldl (fwd tau) v s * g s := by
  rw [totalWeight_eq, sum_beta0_foldl]

namespace MDP
variable {L : Type} [DecidableEq L] {m n : ℕ} {M : MDP ℝ L m} {M' : MDP ℝ L n}

/-- C111, MDPs: traces with fewer than `m + n` actions. -/
theorem agree_of_short (hn : M.actions.Nodup) (hn' : M'.actions.Nodup) (h : ∀ w, w.length / 2 < m + n → M.lik w = M'.lik w) :
    (∀ w, M.lik w = M'.lik w) ∧ (∀ w, M.seqProb w = M'.seqProb w) ∧
      ∀ (S : TSet L) (cpus : ℕ), M.logLikelihoodMultiproc cpus S = M'.logLikelihoodMultiproc cpus S := by
  have key : ∀ ps last, M.stepWeight ps last = M'.stepWeight ps last := by
    intro ps last
    have e : ∀ {n : ℕ} (M : MDP ℝ L n) ps, M.stepWeight ps last = ∑ s, ps.foldl (fwd M.step) M.initialState s * M.mask last s :=
      fun M ps => totalWeight_foldl _ _ _ _
    rw [e, e]
    refine BW.agree_of_short _ _ _ _ _ _ (fun w hw => ?_) ps
    rw [← e, ← e, ← lik_alternate, ← lik_alternate]
    refine h _ ?_
    rw [alternate_length]
    omega
  have hlik : ∀ w, M.lik w = M'.lik w := by
    intro w
    by_cases hw : w.length % 2 = 1
    · obtain ⟨ps, last, rfl⟩ := exists_alternate w hw
      rw [lik_alternate, lik_alternate, key]
    · unfold lik
      rw [dif_neg hw, dif_neg hw]
  have hseq : ∀ w, M.seqProb w = M'.seqProb w := by
    intro w
    have e : ∀ {n : ℕ} (M : MDP ℝ L n), M.actions.Nodup → M.seqProb w = match w.getLast? with
        | none => .error .indexError
        | some last => .ok (M.stepWeight (pairs w) last) := by
      intro n M hn
      unfold seqProb
      cases w.getLast? with
      | none => rfl
      | some last =>
        dsimp only
        rw [M.fwdStep_eq, M.tauP_eq_step hn]
        congr 1
        exact (totalWeight_foldl _ _ _ _).symm
    rw [e M hn, e M' hn']
    simp only [key]
  refine ⟨hlik, hseq, fun S cpus => ?_⟩
  have : (fun p : List L × ℕ => M.computeAlphas p.1 p.2) = fun p => M'.computeAlphas p.1 p.2 := by
    funext p
    unfold computeAlphas
    rw [hseq]
  unfold logLikelihoodMultiproc
  rw [this]

end MDP

/-! ### Continuous-time Markov chains -/

namespace CTMC
variable {L : Type} [DecidableEq L] {m n : ℕ} {M : CTMC ℝ L m} {M' : CTMC ℝ L n}

theorem density_foldl (M : CTMC ℝ L n) (ps : List (L × ℝ)) (last : L) :
    M.density (timed ps last) = ∑ s, ps.foldl (fwd M.rateStep) M.initialState s * M.maskTimed (.obs last) s := by
  unfold density
  rw [timedSteps_timed, totalWeight_foldl, M.maskTimed_eq ps last]

/-- C111, CTMCs: timed traces with fewer than `m + n` waiting times. -/
theorem agree_of_short (h : ∀ w, IsTimed w → (waits w).length < m + n → M.density w = M'.density w) :
    (∀ w, IsTimed w → M.density w = M'.density w) ∧
      ∀ (S : TSet (Sym L)) (cpus : ℕ), (∀ w ∈ S.sequences, IsTimed w) → M.logLikelihoodTimed cpus S = M'.logLikelihoodTimed cpus S := by
  have key : ∀ w, IsTimed w → M.density w = M'.density w := by
    intro w hw
    obtain ⟨ps, last, rfl⟩ := exists_timed w hw
    rw [density_foldl, density_foldl]
    refine BW.agree_of_short _ _ _ _ _ _ (fun ps hps => ?_) ps
    rw [← density_foldl, ← density_foldl]
    refine h _ (isTimed_timed ps last) ?_
    have : waits (timed ps last) = ps.map (fun p => p.2) := waits_timed ps last
    rw [this, List.length_map]
    exact hps
  refine ⟨key, fun S cpus hS => ?_⟩
  have e : ∀ p ∈ S.sequences.zip S.times, M.computeAlphasTimed p.1 p.2 = M'.computeAlphasTimed p.1 p.2 := by
    intro p hp
    have hw := hS p.1 (List.of_mem_zip hp).1
    unfold computeAlphasTimed
    rw [M.timedSum_spec _ hw, M'.timedSum_spec _ hw, key _ hw]
  have : (S.sequences.zip S.times).mapM (fun p => M.computeAlphasTimed p.1 p.2) = (S.sequences.zip S.times).mapM (fun p => M'.computeAlphasTimed p.1 p.2) := by
    generalize S.sequences.zip S.times = l at e
    induction l with
    | nil => rfl
    | cons a l ih =>
      rw [List.mapM_cons, List.mapM_cons, e a (by simp), ih (fun p hp => e p (by simp [hp]))]
  unfold logLikelihoodTimed
  rw [this]

theorem iface_embedded (M : CTMC ℝ L n) : M.iface = M.embedded.iface := by
  unfold iface MC.iface
  rw [M.tau_embedded]
  rfl

/-- C111, untimed traces of CTMCs: fewer than `m + n` observations. -/
theorem agree_of_short_untimed (hM : M.Valid) (hM' : M'.Valid) (hi : ∑ s, M.initialState s = 1) (hi' : ∑ s, M'.initialState s = 1)
    (he : ∀ s, ∑ t, M.matrix s t ≠ 0) (he' : ∀ s, ∑ t, M'.matrix s t ≠ 0)
    (h : ∀ w, w ≠ [] → w.length < m + n → M.embedded.lik w = M'.embedded.lik w) :
    (∀ w, w ≠ [] → M.embedded.lik w = M'.embedded.lik w) ∧
      ∀ (S : TSet L) (cpus : ℕ), M.iface.logLikelihoodMultiproc cpus S = M'.iface.logLikelihoodMultiproc cpus S := by
  rw [M.iface_embedded, M'.iface_embedded]
  exact MC.agree_of_short (M.toMC_stochastic hM hi he) (M'.toMC_stochastic hM' hi' he') h

end CTMC
end Jajapy
