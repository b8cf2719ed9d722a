import Verif.Spec.BWPCTMC
import Verif.Lemmas.PCTMC
import Verif.Props.Simulation

/-!
The exponents and the coefficients that the learner reads in the rate expressions.
-/

set_option linter.unusedSectionVars false

namespace Jajapy
namespace Expr

variable {K : Type} [Field K]

theorem degree_zero (e : Expr K) (p : String) (h : ¬ e.Occurs p) : e.degree p = 0 := by
  induction e with
  | num c => rfl
  | sym q =>
    simp only [degree]
    rw [if_neg]
    rintro rfl
    exact h .sym
  | add a b iha ihb =>
    simp only [degree, iha (fun h' => h (.addL _ _ h')), ihb (fun h' => h (.addR _ _ h'))]
    rfl
  | mul a b iha ihb =>
    simp only [degree, iha (fun h' => h (.mulL _ _ h')), ihb (fun h' => h (.mulR _ _ h'))]
  | pow a k iha => simp only [degree, iha (fun h' => h (.pow _ _ h')), mul_zero]

theorem degree_pos {est : String → Prop} {e : Expr K} (hm : e.Monomial est) (p : String) (hp : est p) (ho : e.Occurs p) :
    0 < e.degree p := by
  induction hm with
  | const e h => exact absurd ho (h p hp)
  | sym q => cases ho; simp [degree]
  | pow q k hk =>
    cases ho with
    | pow _ _ h => cases h; simp [degree, hk]
  | mul a b ha hb hd iha ihb =>
    cases ho with
    | mulL _ _ h => simp only [degree]; have := iha h; omega
    | mulR _ _ h => simp only [degree]; have := ihb h; omega

theorem power_eq {est : String → Prop} {e : Expr K} (hm : e.Monomial est) (p : String) (hp : est p) (ho : e.Occurs p) :
    e.power p = .ok (e.degree p) := by
  induction hm with
  | const e h => exact absurd ho (h p hp)
  | sym q => cases ho; simp [power, degree]
  | pow q k hk =>
    cases ho with
    | pow _ _ h => cases h; simp [power, degree]
  | mul a b ha hb hd iha ihb =>
    simp only [power, degree]
    by_cases h : a.Occurs p
    · rw [if_pos ((mem_free a p).2 h), iha h, degree_zero b p (hd p hp h), add_zero]
    · have hb' : b.Occurs p := by
        cases ho with
        | mulL _ _ h' => exact absurd h' h
        | mulR _ _ h' => exact h'
      rw [if_neg (fun h' => h ((mem_free a p).1 h')), if_pos ((mem_free b p).2 hb'), ihb hb', degree_zero a p h, zero_add]

theorem den_congr (e : Expr K) (ρ ρ' : String → K) (h : ∀ p, e.Occurs p → ρ p = ρ' p) : e.den ρ = e.den ρ' := by
  induction e with
  | num c => rfl
  | sym q => exact h q .sym
  | add a b iha ihb =>
    simp only [den, iha (fun p hp => h p (.addL _ _ hp)), ihb (fun p hp => h p (.addR _ _ hp))]
  | mul a b iha ihb =>
    simp only [den, iha (fun p hp => h p (.mulL _ _ hp)), ihb (fun p hp => h p (.mulR _ _ hp))]
  | pow a k iha => simp only [den, iha (fun p hp => h p (.pow _ _ hp))]

/-- Multiplying the estimated parameters by `u` multiplies a monomial by the corresponding monomial in `u`. -/
theorem den_scale (I : Finset String) {e : Expr K} (hm : e.Monomial (fun p => p ∈ I)) (ρ ρ' u : String → K)
    (h1 : ∀ p ∈ I, ρ' p = ρ p * u p) (h2 : ∀ p ∉ I, ρ' p = ρ p) :
    e.den ρ' = e.den ρ * ∏ p ∈ I, u p ^ e.degree p := by
  have hsym : ∀ (q : String) (k : ℕ), ρ' q ^ k = ρ q ^ k * ∏ p ∈ I, u p ^ (k * (sym (K := K) q).degree p) := by
    intro q k
    by_cases hq : q ∈ I
    · rw [Finset.prod_eq_single q, h1 q hq, mul_pow]
      · simp [degree]
      · intro b _ hb
        simp [degree, Ne.symm hb]
      · intro h; exact absurd hq h
    · rw [h2 q hq, Finset.prod_eq_one, mul_one]
      intro p hp
      have : q ≠ p := by rintro rfl; exact hq hp
      simp [degree, this]
  induction hm with
  | const e h =>
    rw [Finset.prod_eq_one, mul_one]
    · exact den_congr e _ _ (fun p hp => h2 p (fun hI => h p hI hp))
    · intro p hp
      rw [degree_zero e p (h p hp), pow_zero]
  | sym q =>
    have := hsym q 1
    simp only [pow_one, one_mul] at this
    exact this
  | pow q k hk => exact hsym q k
  | mul a b ha hb hd iha ihb =>
    simp only [den, degree, pow_add, Finset.prod_mul_distrib, iha, ihb]
    ring

theorem cofactor_const (v : Valuation K) (p : String) (e : Expr K) (c : K) (h : e.cofactor v p = .ok c)
    (hp : ¬ e.Occurs p) : c = e.den (valOf v) := by
  induction e generalizing c with
  | num x => simp only [cofactor, Except.ok.injEq] at h; exact h.symm
  | sym q =>
    simp only [cofactor, Except.ok.injEq] at h
    rw [if_neg (by rintro rfl; exact hp .sym)] at h
    exact h.symm
  | add a b iha ihb =>
    simp only [cofactor] at h
    split_ifs at h with hf
    injection h with h
    rw [← h, eval_some _ v _ (valOf v) (valOf_extends v)]
    · rfl
    · intro q hq
      rw [← mem_free, hf] at hq
      simp at hq
  | pow a k iha =>
    simp only [cofactor] at h
    split_ifs at h with hf
    injection h with h
    rw [← h, eval_some _ v _ (valOf v) (valOf_extends v)]
    · rfl
    · intro q hq
      rw [← mem_free, hf] at hq
      simp at hq
  | mul a b iha ihb =>
    simp only [cofactor] at h
    obtain ⟨x, hx, h⟩ := (Except.bind_eq_ok _ _ _).1 h
    obtain ⟨y, hy, h⟩ := (Except.bind_eq_ok _ _ _).1 h
    injection h with h
    rw [← h, iha x hx (fun h' => hp (.mulL _ _ h')), ihb y hy (fun h' => hp (.mulR _ _ h'))]
    rfl

theorem cofactor_mono {est : String → Prop} (v : Valuation K) (p : String) (hp : est p) {e : Expr K} (hm : e.Monomial est)
    (ho : e.Occurs p) (c : K) (h : e.cofactor v p = .ok c) : c * valOf v p = e.den (valOf v) := by
  induction hm generalizing c with
  | const e h' => exact absurd ho (h' p hp)
  | sym q =>
    cases ho
    simp only [cofactor, if_pos, Except.ok.injEq] at h
    rw [← h, one_mul]
    rfl
  | pow q k hk => simp [cofactor, free] at h
  | mul a b ha hb hd iha ihb =>
    simp only [cofactor] at h
    obtain ⟨x, hx, h⟩ := (Except.bind_eq_ok _ _ _).1 h
    obtain ⟨y, hy, h⟩ := (Except.bind_eq_ok _ _ _).1 h
    injection h with h
    rw [← h]
    simp only [den]
    by_cases hoa : a.Occurs p
    · rw [← iha hoa x hx, cofactor_const v p b y hy (hd p hp hoa)]
      ring
    · have hob : b.Occurs p := by
        cases ho with
        | mulL _ _ h' => exact absurd h' hoa
        | mulR _ _ h' => exact h'
      rw [← ihb hob y hy, cofactor_const v p a x hx hoa]
      ring

theorem coefficient_eq {est : String → Prop} (v : Valuation K) (p : String) (hp : est p) {e : Expr K} (hm : e.Monomial est)
    (ho : e.Occurs p) (hd : e.degree p = 1) (c : K) (h : e.coefficient v p = .ok c) : c * valOf v p = e.den (valOf v) := by
  cases hm with
  | const e h' => exact absurd ho (h' p hp)
  | sym q =>
    cases ho
    simp only [coefficient, Except.ok.injEq] at h
    rw [← h, one_mul]
    rfl
  | pow q k hk =>
    cases ho with
    | pow _ _ h' =>
      cases h'
      simp only [degree, if_pos, mul_one] at hd
      subst hd
      simp only [coefficient, free, List.mem_singleton, if_true, Except.ok.injEq] at h
      rw [← h, one_mul]
      simp [den]
  | mul a b ha hb hdis =>
    exact cofactor_mono v p hp (.mul a b ha hb hdis) ho c h

theorem free_nodup (e : Expr K) : e.free.Nodup := by
  induction e with
  | num c => exact List.nodup_nil
  | sym p => exact List.nodup_singleton p
  | add a b iha ihb => exact List.Nodup.union _ ihb
  | mul a b iha ihb => exact List.Nodup.union _ ihb
  | pow a k iha => exact iha

end Expr
end Jajapy
