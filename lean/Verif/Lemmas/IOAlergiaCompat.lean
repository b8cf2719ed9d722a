import Verif.Lemmas.IOAlergiaLoop
import Verif.Spec.IOAlergia

/-!
The compatibility test: it ends, and what it means.
-/

namespace Jajapy.IOAlergia

open Relation Auto Spec.IOAlergia

theorem arc_iff {A : Auto} (W : A.WF) {x c y : ℕ} {a o : String} : Arc A x a o c y ↔ A.look x (a, o) = some (c, y) := (look_iff W).symm

theorem reads_iff {A : Auto} (W : A.WF) : ∀ (w : List Key) {x z : ℕ}, Reads A x w z ↔ run A.look x w = some z
  | [], x, z => by simp [Reads, run]
  | (a, o) :: w, x, z => by
    rw [run_cons, Reads]
    simp only [arc_iff W, reads_iff W w]

/-- The test for one action and one observation. -/
theorem hoeffding_spec {bound : ℕ → ℕ → ℕ → ℕ → Py Bool} (hb : ∀ a b c d, ∃ v, bound a b c d = .ok v) {A : Auto} (W : A.WF) (x y : ℕ) (a o : String) :
    ∃ v, hoeffding bound A x y a o = .ok v ∧ (v = true ↔ ∀ c1 z1 c2 z2, A.look x (a, o) = some (c1, z1) → A.look y (a, o) = some (c2, z2) →
      bound c1 (total A x a) c2 (total A y a) = .ok true) := by
  unfold hoeffding
  rw [successor_eq, successor_eq]
  rcases e1 : A.look x (a, o) with _ | ⟨c1, z1⟩
  · exact ⟨true, rfl, by simp⟩
  rcases e2 : A.look y (a, o) with _ | ⟨c2, z2⟩
  · exact ⟨true, rfl, by simp⟩
  have hpos : ∀ {x c z}, A.look x (a, o) = some (c, z) → 0 < (((A.node x).trans a).map (·.1)).sum := by
    intro x c z e
    obtain ⟨h1, h2, _⟩ := (look_iff W).1 e
    have h3 := W.pos h1 h2
    have h4 := List.single_le_sum (l := ((A.node x).trans a).map (·.1)) (by simp) c (List.mem_map.2 ⟨_, h2, rfl⟩)
    dsimp only at h3
    omega
  simp only [Option.map_some, prob_eq W e1, prob_eq W e2]
  rw [if_neg (Nat.mul_ne_zero (hpos e1).ne' (hpos e2).ne')]
  obtain ⟨v, hv⟩ := hb c1 (((A.node x).trans a).map (·.1)).sum c2 (((A.node y).trans a).map (·.1)).sum
  refine ⟨v, hv, ?_⟩
  unfold total
  simp only [Option.some.injEq, Prod.mk.injEq, and_imp]
  constructor
  · rintro rfl _ _ _ _ rfl _ rfl _
    exact hv
  · intro h
    have := h c1 z1 c2 z2 rfl rfl rfl rfl
    rw [hv] at this
    injection this

/-- The futures of two optional states. -/
def AlikeOpt (bound : ℕ → ℕ → ℕ → ℕ → Py Bool) (A : Auto) (x y : Option ℕ) : Prop := ∀ i j, x = some i → y = some j → AlikeFutures bound A i j

theorem compatLoop_spec {bound : ℕ → ℕ → ℕ → ℕ → Py Bool} (hb : ∀ a b c d, ∃ v, bound a b c d = .ok v) {A : Auto} (W : A.WF)
    {rec : Option ℕ → Option ℕ → Option (Py Bool)} {x y : ℕ} : ∀ (ks : List Key)
    (_ : ∀ k ∈ ks, ∃ v, rec (A.successor x k.1 k.2) (A.successor y k.1 k.2) = some (.ok v) ∧
      (v = true ↔ AlikeOpt bound A (A.successor x k.1 k.2) (A.successor y k.1 k.2))),
    ∃ v, compatLoop rec bound A x y ks = some (.ok v) ∧ (v = true ↔ ∀ k ∈ ks, AlikeOpt bound A (A.successor x k.1 k.2) (A.successor y k.1 k.2) ∧
      ∀ c1 z1 c2 z2, A.look x k = some (c1, z1) → A.look y k = some (c2, z2) → bound c1 (total A x k.1) c2 (total A y k.1) = .ok true)
  | [], _ => ⟨true, rfl, by simp⟩
  | (a, o) :: ks, h => by
    obtain ⟨v, hv, hs⟩ := hoeffding_spec hb W x y a o
    rw [compatLoop, hv]
    cases v with
    | false =>
      refine ⟨false, rfl, ?_⟩
      constructor
      · intro h; cases h
      · intro h
        exact hs.2 (h (a, o) List.mem_cons_self).2
    | true =>
      obtain ⟨v', hv', hs'⟩ := h (a, o) List.mem_cons_self
      dsimp only at hv' ⊢
      rw [hv']
      cases v' with
      | false =>
        refine ⟨false, rfl, ?_⟩
        constructor
        · intro h; cases h
        · intro h
          exact hs'.2 (h (a, o) List.mem_cons_self).1
      | true =>
        obtain ⟨v2, hv2, hs2⟩ := compatLoop_spec hb W ks (fun k hk => h k (List.mem_cons_of_mem _ hk))
        refine ⟨v2, hv2, hs2.trans ?_⟩
        rw [List.forall_mem_cons]
        exact ⟨fun h => ⟨⟨hs'.1 rfl, hs.1 rfl⟩, h⟩, fun h => h.2⟩

/-- Futures, one step at a time. -/
theorem alikeFutures_step {bound : ℕ → ℕ → ℕ → ℕ → Py Bool} {A : Auto} (W : A.WF) {x y : ℕ} (ho : (A.node x).obs = (A.node y).obs) :
    AlikeFutures bound A x y ↔ ∀ k ∈ keys A.actions A.observations, AlikeOpt bound A (A.successor x k.1 k.2) (A.successor y k.1 k.2) ∧
      ∀ c1 z1 c2 z2, A.look x k = some (c1, z1) → A.look y k = some (c2, z2) → bound c1 (total A x k.1) c2 (total A y k.1) = .ok true := by
  have hsucc : ∀ x (k : Key) i, A.successor x k.1 k.2 = some i ↔ ∃ c, A.look x k = some (c, i) := by
    intro x k i
    rw [successor_eq]
    simp
  constructor
  · intro h k _
    refine ⟨fun i j hi hj w z1 z2 h1 h2 => ?_, fun c1 z1 c2 z2 e1 e2 => ?_⟩
    · obtain ⟨c1, e1⟩ := (hsucc _ _ _).1 hi
      obtain ⟨c2, e2⟩ := (hsucc _ _ _).1 hj
      exact h (k :: w) z1 z2 ⟨c1, i, (arc_iff W).2 e1, h1⟩ ⟨c2, j, (arc_iff W).2 e2, h2⟩
    · exact (h [] x y rfl rfl).2 k.1 k.2 c1 z1 c2 z2 ((arc_iff W).2 e1) ((arc_iff W).2 e2)
  · intro h w z1 z2 h1 h2
    cases w with
    | nil =>
      obtain rfl : x = z1 := h1
      obtain rfl : y = z2 := h2
      refine ⟨ho, fun a o c1 y1 c2 y2 e1 e2 => ?_⟩
      rw [arc_iff W] at e1 e2
      exact (h (a, o) (look_key W e1).2.1).2 c1 y1 c2 y2 e1 e2
    | cons k w =>
      obtain ⟨c1, i, e1, h1⟩ := h1
      obtain ⟨c2, j, e2, h2⟩ := h2
      rw [arc_iff W] at e1 e2
      exact (h k (look_key W e1).2.1).1 i j ((hsucc _ _ _).2 ⟨c1, e1⟩) ((hsucc _ _ _).2 ⟨c2, e2⟩) w z1 z2 h1 h2

/-- The test for a state from which a set of states, without cycles, can be reached: `rank` is a bound for the length of the words. -/
theorem compatible_spec {bound : ℕ → ℕ → ℕ → ℕ → Py Bool} (hb : ∀ a b c d, ∃ v, bound a b c d = .ok v) {A : Auto} (W : A.WF)
    (P : ℕ → Prop) (rank : ℕ → ℕ) (hP : ∀ x y, P x → Edge A.look x y → P y ∧ rank y < rank x) : ∀ (f : ℕ) (x y : Option ℕ),
    (∀ j, y = some j → P j ∧ rank j + 1 < f) → 0 < f → ∃ v, compatible bound A f x y = some (.ok v) ∧ (v = true ↔ AlikeOpt bound A x y)
  | 0, _, _, _, h => by omega
  | f + 1, none, y, _, _ => ⟨true, rfl, by simp [AlikeOpt]⟩
  | f + 1, some i, none, _, _ => ⟨true, rfl, by simp [AlikeOpt]⟩
  | f + 1, some i, some j, h, _ => by
    obtain ⟨hj, hr⟩ := h j rfl
    have hA : AlikeOpt bound A (some i) (some j) ↔ AlikeFutures bound A i j := by
      constructor
      · exact fun h => h i j rfl rfl
      · rintro h i' j' e e'
        cases e; cases e'; exact h
    rw [compatible]
    by_cases ho : (A.node i).obs = (A.node j).obs
    · rw [if_neg (not_not.2 ho), hA, alikeFutures_step W ho]
      refine compatLoop_spec hb W _ ?_
      intro k _
      refine compatible_spec hb W P rank hP f _ _ ?_ (by omega)
      intro t ht
      rw [successor_eq] at ht
      simp only [Option.map_eq_some_iff] at ht
      obtain ⟨⟨c, t'⟩, e, rfl⟩ := ht
      obtain ⟨h1, h2⟩ := hP j t' hj ⟨k, c, e⟩
      exact ⟨h1, by dsimp only; omega⟩
    · rw [if_pos ho]
      refine ⟨false, rfl, ?_⟩
      rw [hA]
      constructor
      · intro h; cases h
      · intro h; exact absurd (h [] i j rfl rfl).1 ho

section
variable {A : Auto} {red blue : List ℕ} {D : Set ℕ} {b : ℕ}

/-- There is no cycle below a blue state. -/
theorem Inv.acyclic (I : Inv A red blue D) (hb : b ∈ blue) {z t : ℕ} (h : Below A.look (Roots A red) D b z) :
    Tree A.look (Roots A red) D z t → ¬ Below A.look (Roots A red) D t z := by
  obtain ⟨hbR, _, _⟩ := I.blueIn b hb
  have hbD := I.blue_live hb
  have hpred := I.blue_preds hb
  induction h generalizing t with
  | refl =>
    intro e h
    rcases ReflTransGen.cases_tail h with h | ⟨w, _, ew⟩
    · subst h
      exact e.1 (hpred _ e.2.1 e.2.2)
    · exact ew.1 (hpred _ ew.2.1 ew.2.2)
  | @tail x z hx ex ih =>
    intro e h
    by_cases hzt : t = z
    · subst hzt
      obtain ⟨k, c, e1⟩ := e.2.2
      obtain ⟨k', c', e2⟩ := ex.2.2
      have := (I.forest.uniq e.2.1 ex.2.1 e.1 e1 e2).1
      subst this
      exact ih ex .refl
    · exact ih ex ((ReflTransGen.single e).trans (I.forest.below_pred ex.2.1 ex.2.2 h hzt))

/-- The test of the loop. -/
theorem Inv.compatTest {bound : ℕ → ℕ → ℕ → ℕ → Py Bool} (hbd : ∀ a b c d, ∃ v, bound a b c d = .ok v) (I : Inv A red blue D) (hb : b ∈ blue) (r : ℕ) :
    ∃ v, compatTest bound A r b = .ok v ∧ (v = true ↔ AlikeFutures bound A r b) := by
  obtain ⟨hbR, hbs, _⟩ := I.blueIn b hb
  have hbD := I.blue_live hb
  let B := fun z => {y | Below A.look (Roots A red) D z y}
  have hfin : ∀ z, Below A.look (Roots A red) D b z → (B z).Finite := fun z hz => below_finite I.wf (below_size I.wf hbs hz)
  have hpos : ∀ z, Below A.look (Roots A red) D b z → 0 < (B z).ncard := by
    intro z hz
    rw [Set.ncard_pos (hfin z hz)]
    exact ⟨z, .refl⟩
  have hsz : (B b).ncard ≤ A.size := by
    have h1 : B b ⊆ Set.Iio A.size := fun z hz => below_size I.wf hbs hz
    have h2 := Set.ncard_le_ncard h1 (Set.finite_Iio A.size)
    rwa [Set.ncard_eq_toFinset_card' (Set.Iio A.size), Set.toFinset_Iio, Nat.card_Iio] at h2
  have hP : ∀ x y, Below A.look (Roots A red) D b x → Edge A.look x y →
      Below A.look (Roots A red) D b y ∧ (B y).ncard - 1 < (B x).ncard - 1 := by
    intro x y hx e
    obtain ⟨h1, h2⟩ := I.forest.below_live hbR hbD hx
    have ht : Tree A.look (Roots A red) D x y := ⟨h1, h2, e⟩
    have hy := ReflTransGen.tail hx ht
    refine ⟨hy, ?_⟩
    have hlt : (B y).ncard < (B x).ncard := by
      refine Set.ncard_lt_ncard ⟨fun z hz => (ReflTransGen.single ht).trans hz, fun h => ?_⟩ (hfin x hx)
      exact I.acyclic hb hx ht (h (show x ∈ B x from .refl))
    have := hpos y hy
    omega
  have h0 : ∀ j, some b = some j → Below A.look (Roots A red) D b j ∧ (B j).ncard - 1 + 1 < A.size + 1 := by
    rintro j e
    cases e
    have := hpos b .refl
    exact ⟨.refl, by omega⟩
  obtain ⟨v, hv, hs⟩ := compatible_spec hbd I.wf _ (fun z => (B z).ncard - 1) hP (A.size + 1) (some r) (some b) h0 (by omega)
  refine ⟨v, ?_, ?_⟩
  · unfold IOAlergia.compatTest
    rw [hv]; rfl
  · rw [hs]
    constructor
    · exact fun h => h r b rfl rfl
    · rintro h i j e e'
      cases e; cases e'; exact h

end

end Jajapy.IOAlergia
