import Verif.Props.Prep
import Verif.Props.FitParameters

/-!
C43 for PCTMCs: the label 'init' in the training set of `fit` and `fit_parameters`.
-/

set_option autoImplicit false
set_option linter.unusedSectionVars false

namespace Jajapy

open Spec

namespace PCTMC

/-- C43, PCTMC: if no trace shows 'init', every trace gets it in front, once; multiplicities and type stay. (Otherwise nothing changes: `prepare_spec`.) -/
theorem prepare_without (S : Traces) (hS : Typed S) (hi : ¬ Shows S "init") :
    prepare S = .ok (match S with
      | .untimed S => .untimed ⟨S.sequences.map ("init" :: ·), S.times, S.floatTimes, S.type⟩
      | .timed S => .timed ⟨S.sequences.map (.obs "init" :: ·), S.times, S.floatTimes, S.type⟩) := by
  cases S with
  | untimed S =>
    obtain ⟨A, h1, _, h3⟩ := TSet.getAlphabet_untimed S hS
    unfold prepare withInit
    dsimp only
    rw [h1]
    have : "init" ∉ A := fun h => hi ((h3 _).1 h)
    simp only [bind, Except.bind, pure, Except.pure]
    rw [if_neg this]
  | timed S =>
    obtain ⟨A, h1, _, h3⟩ := TSet.getAlphabet_timed S hS
    unfold prepare withInit
    dsimp only
    rw [h1]
    have : (Sym.obs "init") ∉ A := fun h => hi ((h3 _).1 h)
    simp only [bind, Except.bind, pure, Except.pure]
    rw [if_neg this]

/-- After the preparation every trace of a set without 'init' starts with it. -/
theorem prepare_shows (S : Traces) (hS : Typed S) (hi : ¬ Shows S "init") : ∃ S', prepare S = .ok S' ∧
    (match S' with
      | .untimed S' => ∀ w ∈ S'.sequences, w.head? = some "init"
      | .timed S' => ∀ w ∈ S'.sequences, w.head? = some (.obs "init")) := by
  rw [prepare_without S hS hi]
  cases S with
  | untimed S =>
    refine ⟨_, rfl, fun w hw => ?_⟩
    obtain ⟨v, _, rfl⟩ := List.mem_map.1 hw
    rfl
  | timed S =>
    refine ⟨_, rfl, fun w hw => ?_⟩
    obtain ⟨v, _, rfl⟩ := List.mem_map.1 hw
    rfl

/-- The preparation is the one of `BW.fit` for the other models, on the memory of Model/Prep.lean. -/
theorem withInit_agrees {α : Type} [DecidableEq α] (kind : α → Kind) (init : α) (m : Option ℕ) (hm : m ≠ some 2) (mem : List (List α)) (S : Prep.SetObj) (t : ℕ)
    (hS : Prep.Labelled mem S t) (hv : Prep.Valid mem S) :
    ∃ mem' A, Prep.getTrainingSet kind init m mem (.obj S) = .ok (mem', S, some A) ∧ withInit init (S.content mem) = .ok (S.content mem') := by
  obtain ⟨mem', A, h1, h2, h3, h4⟩ := Prep.prepare_spec kind init m hm mem S t hS hv
  obtain ⟨B, b1, _, b2⟩ := Prep.alphabet_spec (S.content mem) t hS.1 hS.2
  refine ⟨mem', A, h1, ?_⟩
  unfold withInit
  rw [b1]
  by_cases ho : ∃ s ∈ (S.content mem).sequences, Spec.Occurs t s init
  · rw [h2 ho]
    show (if init ∈ B then _ else _) = _
    rw [if_pos ((b2 init).2 ho)]
    rfl
  · show (if init ∈ B then _ else _) = _
    rw [if_neg (fun h => ho ((b2 init).1 h)), ← (h3 ho).1]
    rfl

/-- Non-vacuity: a timed trace without 'init'. -/
example : prepare (.timed ⟨[[.obs "a", .time 1, .obs "b"]], [2], false, some 4⟩) =
    .ok (.timed ⟨[[.obs "init", .obs "a", .time 1, .obs "b"]], [2], false, some 4⟩) := by
  refine (prepare_without (.timed ⟨[[.obs "a", .time 1, .obs "b"]], [2], false, some 4⟩) rfl ?_).trans rfl
  rintro ⟨w, hw, k, h⟩
  simp only [List.mem_singleton] at hw
  subst hw
  rcases k with _ | _ | k <;> simp [Nat.mul_add] at h

end PCTMC
end Jajapy
