import Mathlib.Tactic.IntervalCases
import Verif.Spec.Prep
import Verif.Props.TSet
import Verif.Props.BWLearn

/-!
C43, C44, C57, C59: the preparation of a training, and what a call of `fit` changes.
-/

namespace Jajapy
namespace Prep

open Spec TSet

variable {α : Type} [DecidableEq α]

/-! ### C43: the initial label -/

theorem mem_evensBeforeLast (l : List α) (x : α) :
    x ∈ evensBeforeLast l ↔ ∃ k, 2 * k + 1 < l.length ∧ l[2 * k]? = some x := by
  induction l using evensBeforeLast.induct with
  | case1 => simp [evensBeforeLast]
  | case2 y => simp [evensBeforeLast]
  | case3 y z rest ih =>
    simp only [evensBeforeLast, List.mem_cons, ih]
    constructor
    · rintro (rfl | ⟨k, h1, h2⟩)
      · exact ⟨0, by simp, by simp⟩
      · exact ⟨k + 1, by simp only [List.length_cons]; omega, by rw [show 2 * (k + 1) = 2 * k + 1 + 1 by ring]; simpa using h2⟩
    · rintro ⟨k, h1, h2⟩
      cases k with
      | zero => left; simpa using h2.symm
      | succ k =>
        right
        refine ⟨k, by simp only [List.length_cons] at h1; omega, ?_⟩
        rw [show 2 * (k + 1) = 2 * k + 1 + 1 by ring] at h2
        simpa using h2

theorem actObsLoop_total (l : List (List α)) (h : ∀ s ∈ l, s ≠ []) :
    ∃ r, actObsLoop l = .ok r ∧ ∀ x, x ∈ r.2 ↔ ∃ s ∈ l, Occurs 1 s x := by
  induction l with
  | nil => exact ⟨_, rfl, by simp⟩
  | cons s l ih =>
    obtain ⟨r, hr, hx⟩ := ih (fun s hs => h s (List.mem_cons_of_mem _ hs))
    have hne : s ≠ [] := h s (List.mem_cons_self ..)
    obtain ⟨last, hl⟩ : ∃ last, s.getLast? = some last := ⟨_, List.getLast?_eq_some_getLast hne⟩
    refine ⟨(odds s ++ r.1, evensBeforeLast s ++ [last] ++ r.2), ?_, ?_⟩
    · simp only [actObsLoop, hl, hr]
      rfl
    · intro x
      simp only [List.mem_append, mem_evensBeforeLast, hx, List.mem_cons, exists_eq_or_imp]
      have : Occurs 1 s x ↔ (∃ k, 2 * k + 1 < s.length ∧ s[2 * k]? = some x) ∨ x = last := by
        unfold Occurs
        simp [hl, eq_comm]
      rw [this]
      simp

/-- The alphabet that the preparation computes. -/
theorem alphabet_spec (S : TSet α) (t : ℕ) (hS : S.type = some t)
    (ht : t = 0 ∨ t = 4 ∨ (t = 1 ∧ ∀ s ∈ S.sequences, s ≠ [])) :
    ∃ A, S.getAlphabet = .ok A ∧ A.Nodup ∧ ∀ x, x ∈ A ↔ ∃ s ∈ S.sequences, Occurs t s x := by
  rcases ht with rfl | rfl | ⟨rfl, hne⟩
  · obtain ⟨A, h1, h2, h3⟩ := getAlphabet_untimed S hS
    exact ⟨A, h1, h2, by simpa [Occurs] using h3⟩
  · obtain ⟨A, h1, h2, h3⟩ := getAlphabet_timed S hS
    exact ⟨A, h1, h2, by simpa [Occurs] using h3⟩
  · obtain ⟨r, hr, hx⟩ := actObsLoop_total S.sequences hne
    refine ⟨r.2.dedup, ?_, List.nodup_dedup _, fun x => by rw [List.mem_dedup, hx]⟩
    simp [getAlphabet, hS, getActionsObservations, hr, bind, Except.bind, pure, Except.pure]

theorem insertInit_getElem? (init : α) (refs : List ℕ) (mem : List (List α)) (r : ℕ) :
    (insertInit init refs mem)[r]? = (mem[r]?).map (fun s => List.replicate (refs.count r) init ++ s) := by
  unfold insertInit
  induction refs generalizing mem with
  | nil =>
    cases h : mem[r]? with
    | none => simpa using h
    | some s => simpa using h
  | cons q refs ih =>
    rw [List.foldl_cons, ih, List.getElem?_modify, List.count_cons]
    by_cases hq : q = r
    · subst hq
      cases mem[q]? with
      | none => simp
      | some s => simp [List.replicate_succ']
    · cases mem[r]? with
      | none => simp
      | some s => simp [hq]

theorem insertInit_length (init : α) (refs : List ℕ) (mem : List (List α)) :
    (insertInit init refs mem).length = mem.length := by
  unfold insertInit
  induction refs generalizing mem with
  | nil => rfl
  | cons q refs ih => rw [List.foldl_cons, ih, List.length_modify]

/-- Well formed arguments: the entries of the set are distinct lists of the memory. -/
def Valid (mem : List (List α)) (S : SetObj) : Prop := S.refs.Nodup ∧ ∀ r ∈ S.refs, r < mem.length

/-- The type of the set is one for which the initial label matters. -/
def Labelled (mem : List (List α)) (S : SetObj) (t : ℕ) : Prop :=
  S.type = some t ∧ (t = 0 ∨ t = 4 ∨ (t = 1 ∧ ∀ s ∈ (S.content mem).sequences, s ≠ []))

/-- C43, one call for a model that is not an HMM: if no trace of the set has the initial label among its observations,
every trace of the set (and no other list) gets it in front, once; otherwise nothing is changed. -/
theorem prepare_spec (kind : α → Kind) (init : α) (m : Option ℕ) (hm : m ≠ some 2) (mem : List (List α)) (S : SetObj)
    (t : ℕ) (hS : Labelled mem S t) (hv : Valid mem S) :
    ∃ mem' A, getTrainingSet kind init m mem (.obj S) = .ok (mem', S, some A) ∧
      ((∃ s ∈ (S.content mem).sequences, Occurs t s init) → mem' = mem) ∧
      ((¬ ∃ s ∈ (S.content mem).sequences, Occurs t s init) →
        (S.content mem').sequences = (S.content mem).sequences.map (init :: ·) ∧
        ∀ r, r ∉ S.refs → mem'[r]? = mem[r]?) ∧
      ∀ x, x ∈ A ↔ x ≠ init ∧ ∃ s ∈ (S.content mem).sequences, Occurs t s x := by
  obtain ⟨A, h1, h2, h3⟩ := alphabet_spec (S.content mem) t hS.1 hS.2
  have ht3 : S.type ≠ some 3 := by
    rw [hS.1]
    rcases hS.2 with rfl | rfl | ⟨rfl, _⟩ <;> simp
  unfold getTrainingSet resolve
  simp only [bind, Except.bind]
  rw [if_pos ⟨ht3, hm⟩, h1]
  simp only
  by_cases hi : init ∈ A
  · rw [if_neg (not_not.2 hi)]
    have ho := (h3 init).1 hi
    refine ⟨mem, A.erase init, rfl, fun _ => rfl, fun h => absurd ho h, fun x => ?_⟩
    rw [h2.mem_erase_iff, h3]
  · rw [if_pos hi]
    refine ⟨_, A, rfl, fun h => absurd ((h3 init).2 h) hi, fun _ => ⟨?_, ?_⟩, fun x => ?_⟩
    · simp only [SetObj.content, List.map_map]
      refine List.map_congr_left (fun r hr => ?_)
      have hlt := hv.2 r hr
      simp only [Function.comp, List.getD_eq_getElem?_getD, insertInit_getElem?]
      rw [List.getElem?_eq_getElem hlt, List.count_eq_one_of_mem hv.1 hr]
      rfl
    · intro r hr
      rw [insertInit_getElem?, List.count_eq_zero_of_not_mem hr]
      cases mem[r]? <;> simp
    · rw [h3]
      constructor
      · intro h
        refine ⟨?_, h⟩
        rintro rfl
        exact hi ((h3 _).2 h)
      · exact fun h => h.2

/-- For an HMM, and for a set of vectors, nothing is changed. -/
theorem prepare_HMM (kind : α → Kind) (init : α) (m : Option ℕ) (mem : List (List α)) (S : SetObj)
    (h : m = some 2 ∨ S.type = some 3) : getTrainingSet kind init m mem (.obj S) = .ok (mem, S, none) := by
  unfold getTrainingSet resolve
  simp only [bind, Except.bind]
  rw [if_neg (by tauto)]
  rfl

/-- Several calls on the same set, for models of types `ms`: the memory after them. -/
def prepares (kind : α → Kind) (init : α) (S : SetObj) : List (Option ℕ) → List (List α) → Py (List (List α))
  | [], mem => .ok mem
  | m :: ms, mem => do
    let r ← getTrainingSet kind init m mem (.obj S)
    prepares kind init S ms r.1

theorem occurs_head (t : ℕ) (s : List α) (x : α) (ht : t = 0 ∨ t = 4 ∨ t = 1) : Occurs t (x :: s) x := by
  rcases ht with rfl | rfl | rfl
  · simp [Occurs]
  · unfold Occurs
    rw [if_neg (by decide), if_pos rfl]
    exact ⟨0, rfl⟩
  · unfold Occurs
    rw [if_neg (by decide), if_neg (by decide), if_pos rfl]
    cases s with
    | nil => right; rfl
    | cons y s => left; exact ⟨0, by simp, rfl⟩

theorem prepares_done (kind : α → Kind) (init : α) (S : SetObj) (t : ℕ) (ms : List (Option ℕ)) (mem : List (List α))
    (hS : Labelled mem S t) (hv : Valid mem S) (h : ∃ s ∈ (S.content mem).sequences, Occurs t s init) :
    prepares kind init S ms mem = .ok mem := by
  induction ms with
  | nil => rfl
  | cons m ms ih =>
    unfold prepares
    by_cases hm : m = some 2
    · rw [prepare_HMM kind init m mem S (Or.inl hm)]
      exact ih
    · obtain ⟨mem', A, e, h1, _⟩ := prepare_spec kind init m hm mem S t hS hv
      rw [e, h1 h]
      exact ih

open Classical in
/-- C43, histories: after any sequence of calls of `fit` on the same non-empty set, at least one of them not for an HMM,
each trace has the initial label in front exactly once if no trace had it, and is unchanged if some trace had it. -/
theorem prepares_spec (kind : α → Kind) (init : α) (S : SetObj) (t : ℕ) (ms : List (Option ℕ)) (mem : List (List α))
    (hS : Labelled mem S t) (hv : Valid mem S) :
    ∃ mem', prepares kind init S ms mem = .ok mem' ∧
      (S.content mem').sequences =
        if (∃ m ∈ ms, m ≠ some 2) ∧ ∀ s ∈ (S.content mem).sequences, ¬ Occurs t s init then
          (S.content mem).sequences.map (init :: ·)
        else (S.content mem).sequences := by
  induction ms with
  | nil => exact ⟨mem, rfl, by simp⟩
  | cons m ms ih =>
    unfold prepares
    by_cases hm : m = some 2
    · rw [prepare_HMM kind init m mem S (Or.inl hm)]
      show ∃ mem', prepares kind init S ms mem = .ok mem' ∧ _
      simpa [hm] using ih
    · obtain ⟨mem', A, e, h1, h2, _⟩ := prepare_spec kind init m hm mem S t hS hv
      rw [e]
      have hex : ∃ m' ∈ m :: ms, m' ≠ some 2 := ⟨m, List.mem_cons_self .., hm⟩
      by_cases ho : ∃ s ∈ (S.content mem).sequences, Occurs t s init
      · rw [h1 ho]
        refine ⟨mem, prepares_done kind init S t ms mem hS hv ho, ?_⟩
        rw [if_neg]
        rintro ⟨_, h⟩
        obtain ⟨s, hs, hso⟩ := ho
        exact h s hs hso
      · obtain ⟨h3, h4⟩ := h2 ho
        have hcond : (∃ m' ∈ m :: ms, m' ≠ some 2) ∧ ∀ s ∈ (S.content mem).sequences, ¬ Occurs t s init := by
          refine ⟨hex, ?_⟩
          push Not at ho
          exact ho
        rw [if_pos hcond]
        by_cases hnil : S.refs = []
        · have hall : ∀ mem : List (List α), (S.content mem).sequences = [] := by
            intro mem; simp [SetObj.content, hnil]
          have : ∀ (ms : List (Option ℕ)) (mem : List (List α)), Labelled mem S t → ∃ mem', prepares kind init S ms mem = .ok mem' := by
            intro ms
            induction ms with
            | nil => exact fun mem _ => ⟨mem, rfl⟩
            | cons m ms ih' =>
              intro mem hl
              unfold prepares
              by_cases hm : m = some 2
              · rw [prepare_HMM kind init m mem S (Or.inl hm)]
                exact ih' mem hl
              · obtain ⟨mem', A, e, _⟩ := prepare_spec kind init m hm mem S t hl ⟨by simp [hnil], by simp [hnil]⟩
                rw [e]
                refine ih' mem' ⟨hl.1, ?_⟩
                rcases hl.2 with h | h | ⟨h, _⟩
                · exact Or.inl h
                · exact Or.inr (Or.inl h)
                · exact Or.inr (Or.inr ⟨h, by simp [hall]⟩)
          obtain ⟨mem'', h⟩ := this ms mem' ⟨hS.1, by
            rcases hS.2 with h | h | ⟨h, _⟩
            · exact Or.inl h
            · exact Or.inr (Or.inl h)
            · exact Or.inr (Or.inr ⟨h, by simp [hall]⟩)⟩
          exact ⟨mem'', h, by simp [hall]⟩
        · have hlen : ∀ r ∈ S.refs, r < mem'.length := by
            intro r hr
            by_contra hc
            have h5 : (S.content mem').sequences = S.refs.map (fun r => mem'.getD r []) := rfl
            rw [h3] at h5
            have h6 : (S.content mem).sequences = S.refs.map (fun r => mem.getD r []) := rfl
            rw [h6, List.map_map] at h5
            have := List.map_inj_left.1 h5 r hr
            simp only [Function.comp, List.getD_eq_getElem?_getD] at this
            rw [show mem'[r]? = none from List.getElem?_eq_none (by omega)] at this
            simp at this
          have hL : Labelled mem' S t := by
            refine ⟨hS.1, ?_⟩
            rcases hS.2 with h | h | ⟨h, _⟩
            · exact Or.inl h
            · exact Or.inr (Or.inl h)
            · refine Or.inr (Or.inr ⟨h, ?_⟩)
              rw [h3]
              intro s hs
              obtain ⟨s', _, rfl⟩ := List.mem_map.1 hs
              simp
          refine ⟨mem', prepares_done kind init S t ms mem' hL ⟨hv.1, hlen⟩ ?_, h3⟩
          rw [h3]
          obtain ⟨r, hr⟩ := List.exists_mem_of_ne_nil _ hnil
          refine ⟨init :: mem.getD r [], List.mem_map.2 ⟨_, List.mem_map.2 ⟨r, hr, rfl⟩, rfl⟩, ?_⟩
          refine occurs_head t _ init ?_
          rcases hS.2 with h | h | ⟨h, _⟩ <;> tauto

/-- A set of three traces meets the hypotheses. -/
example : let mem : List (List ℕ) := [[1, 2], [2], [7]]
    Labelled mem ⟨[0, 2], [3, 1], false, some 0⟩ 0 ∧ Valid mem ⟨[0, 2], [3, 1], false, some 0⟩ ∧
    getTrainingSet (fun _ => .str) 0 (some 0) mem (.obj ⟨[0, 2], [3, 1], false, some 0⟩) =
      .ok ([[0, 1, 2], [2], [0, 7]], ⟨[0, 2], [3, 1], false, some 0⟩, some [1, 2, 7]) := by
  refine ⟨⟨rfl, Or.inl rfl⟩, ⟨by decide, by decide⟩, by decide⟩

/-- C43 fails when only some traces have the initial label: the others do not get it. -/
theorem mixed_traces_not_prepared :
    ∃ (mem : List (List ℕ)) (S : SetObj), Labelled mem S 0 ∧ Valid mem S ∧ [5] ∈ (S.content mem).sequences ∧
      ∃ A, getTrainingSet (fun _ => .str) 0 (some 0) mem (.obj S) = .ok (mem, S, A) :=
  ⟨[[0, 5], [5]], ⟨[0, 1], [1, 1], false, some 0⟩, ⟨rfl, Or.inl rfl⟩, ⟨by decide, by decide⟩, by decide, some [5], by decide⟩

/-- C43 fails when a list object occurs twice in the set: it gets the initial label as many times. -/
theorem shared_trace_prepared_twice :
    ∃ (mem : List (List ℕ)) (S : SetObj) (A : _), S.type = some 0 ∧ (S.content mem).sequences = [[5], [5]] ∧
      getTrainingSet (fun _ => .str) 0 (some 0) mem (.obj S) = .ok ([[0, 0, 5]], S, A) :=
  ⟨[[5]], ⟨[0, 0], [1, 1], false, some 0⟩, some [5], by decide⟩

theorem odds_cons (x : α) (s : List α) : odds (x :: s) = evens s := by
  induction s using evens.induct generalizing x with
  | case1 => rfl
  | case2 y => rfl
  | case3 y z rest ih =>
    rw [odds, evens, ih]

/-- C43 fails for traces of actions and labels ("the traces stay well formed"): when the initial label is put in front, the
labels take the places of the actions. In the prepared set, the actions are the labels of the original one. -/
theorem prepared_actions_are_labels (kind : α → Kind) (init : α) (m : Option ℕ) (hm : m ≠ some 2) (mem : List (List α)) (S : SetObj)
    (hS : S.type = some 1) (hv : Valid mem S) (hodd : ∀ s ∈ (S.content mem).sequences, s.length % 2 = 1)
    (hno : ¬ ∃ s ∈ (S.content mem).sequences, Occurs 1 s init) :
    ∃ mem' A acts obs, getTrainingSet kind init m mem (.obj S) = .ok (mem', S, A) ∧
      (S.content mem').getActionsObservations = .ok (acts, obs) ∧
      ∀ x, x ∈ acts ↔ ∃ s ∈ (S.content mem).sequences, ∃ k, s[2 * k]? = some x := by
  have hne : ∀ s ∈ (S.content mem).sequences, s ≠ [] := by
    rintro s hs rfl
    exact absurd (hodd _ hs) (by simp)
  obtain ⟨mem', A, e, _, h2, _⟩ := prepare_spec kind init m hm mem S 1 ⟨hS, Or.inr (Or.inr ⟨rfl, hne⟩)⟩ hv
  obtain ⟨h3, _⟩ := h2 hno
  have key : ∀ l : List (List α), ∃ r, actObsLoop (l.map (init :: ·)) = .ok r ∧ ∀ x, x ∈ r.1 ↔ ∃ s ∈ l, ∃ k, s[2 * k]? = some x := by
    intro l
    induction l with
    | nil => exact ⟨_, rfl, by simp⟩
    | cons s l ih =>
      obtain ⟨r, hr, hx⟩ := ih
      obtain ⟨last, hl⟩ : ∃ last, (init :: s).getLast? = some last := ⟨_, List.getLast?_eq_some_getLast (by simp)⟩
      refine ⟨(odds (init :: s) ++ r.1, evensBeforeLast (init :: s) ++ [last] ++ r.2), ?_, ?_⟩
      · simp only [List.map_cons, actObsLoop, hl, hr]
        rfl
      · intro x
        simp only [List.mem_append, hx, odds_cons, mem_evens, List.mem_cons, exists_eq_or_imp]
  obtain ⟨r, hr, hx⟩ := key (S.content mem).sequences
  refine ⟨mem', some A, r.1.dedup, r.2.dedup, e, ?_, fun x => by rw [List.mem_dedup, hx]⟩
  unfold getActionsObservations
  rw [h3, hr]
  rfl

/-- The hypotheses are met; 0 is the initial label, 1 and 2 labels, 7 an action. -/
example : let mem : List (List ℕ) := [[1, 7, 2]]
    Valid mem ⟨[0], [1], false, some 1⟩ ∧ (∀ s ∈ (SetObj.content mem ⟨[0], [1], false, some 1⟩).sequences, s.length % 2 = 1) ∧
    getTrainingSet (fun _ => .str) 0 (some 1) mem (.obj ⟨[0], [1], false, some 1⟩) =
      .ok ([[0, 1, 7, 2]], ⟨[0], [1], false, some 1⟩, some [1, 2]) := by
  refine ⟨⟨by decide, by decide⟩, by decide, by decide⟩

/-- The same for timed traces: in the prepared trace the labels are where the dwell times should be. -/
theorem prepared_timed_labels (init : α) (s : List α) (k : ℕ) : (init :: s)[2 * k + 1]? = s[2 * k]? := by
  simp

/-! ### C44: incompatible data -/

/-- C44, partial: data that can be used is never refused … -/
theorem usable_not_refused_partial (t m : ℕ) (h : Usable t m) : refused t m = false := by
  rcases h with ⟨rfl, h⟩ | ⟨rfl, rfl⟩ | ⟨rfl, rfl⟩ | ⟨rfl, h⟩
  · simp [refused]
  · decide
  · decide
  · rcases h with rfl | rfl <;> decide

/-- … and exactly four pairs are refused: actions and labels for an MC or a GoHMM, vectors for an MC or an MDP. -/
theorem refused_iff (t m : ℕ) (ht : t = 0 ∨ t = 1 ∨ t = 3 ∨ t = 4) (hm : m < 6) :
    refused t m = true ↔ (t = 1 ∧ (m = 0 ∨ m = 3)) ∨ (t = 3 ∧ (m = 0 ∨ m = 1)) := by
  rcases ht with rfl | rfl | rfl | rfl <;> interval_cases m <;> decide

/-- C44 fails for the other unusable pairs, e.g. timed traces for an MC, an MDP, an HMM or a GoHMM. -/
theorem unusable_accepted (t m : ℕ) (ht : t = 0 ∨ t = 1 ∨ t = 3 ∨ t = 4) (hm : m < 6) :
    (¬ Usable t m ∧ refused t m = false) ↔
      (t = 0 ∧ m = 3) ∨ (t = 1 ∧ (m = 2 ∨ m = 4 ∨ m = 5)) ∨ (t = 3 ∧ (m = 2 ∨ m = 4 ∨ m = 5)) ∨
      (t = 4 ∧ (m = 0 ∨ m = 1 ∨ m = 2 ∨ m = 3)) := by
  rcases ht with rfl | rfl | rfl | rfl <;> interval_cases m <;> decide

/-- A list of traces is never taken for a set of traces of actions and labels. -/
theorem list_never_MDP (kind : α → Kind) (mem : List (List α)) (l : List (List α)) (mem' : List (List α)) (S : SetObj)
    (h : resolve kind mem (.list l) = .ok (mem', S)) : S.type ≠ some 1 := by
  unfold resolve at h
  simp only [bind, Except.bind] at h
  cases hT : TSet.mk' kind l none none with
  | error e => rw [hT] at h; cases h
  | ok T =>
    rw [hT] at h
    injection h with h
    obtain ⟨_, h⟩ := Prod.mk.inj h
    subst h
    cases l with
    | nil =>
      simp only [TSet.mk'] at hT
      injection hT with hT
      subst hT
      simp
    | cons s0 l =>
      simp only [TSet.mk', bind, Except.bind] at hT
      cases hty : inferType kind s0 with
      | error e => rw [hty] at hT; cases hT
      | ok ty =>
        rw [hty] at hT
        injection hT with hT
        subst hT
        have h1 : ty = 4 ∨ ty = 3 ∨ ty = 0 := by
          unfold inferType at hty
          split at hty
          · split_ifs at hty <;> injection hty with hty <;> simp [← hty]
          · cases hty
        have h2 : (setFromList (s0 :: l)).1 ≠ [] := by
          intro h
          have := ((setFromList_inv (s0 :: l)).2.2.1 s0).2 (List.mem_cons_self ..)
          rw [h] at this
          cases this
        simp only [h2, and_false, if_false]
        rcases h1 with rfl | rfl | rfl <;> simp

/-! ### C57: using a learner again -/

theorem after_pctmc (calls : List Call) (L : Learner) :
    (L.after calls).pctmc = true ↔ L.pctmc = true ∨ ∃ c ∈ calls, ∃ t, c = .fit 5 t ∨ c = .params t := by
  unfold Learner.after
  induction calls generalizing L with
  | nil => simp
  | cons c calls ih =>
    rw [List.foldl_cons, ih]
    have : (L.bind c).pctmc = true ↔ L.pctmc = true ∨ ∃ t, c = .fit 5 t ∨ c = .params t := by
      cases c with
      | fit m t =>
        by_cases h1 : m = 1
        · subst h1; simp [Learner.bind]
        by_cases h4 : m = 4
        · subst h4
          by_cases h : t = 4 <;> simp [Learner.bind, h]
        by_cases h5 : m = 5
        · subst h5; simp [Learner.bind]
        simp [Learner.bind, h1, h4, h5]
      | params t => simp [Learner.bind]
    rw [this]
    simp only [List.mem_cons, exists_eq_or_imp]
    rw [or_assoc]

theorem after_fwd (calls : List Call) (L : Learner) :
    (L.after calls).fwd = .plain ↔
      L.fwd = .plain ∧ ∀ c ∈ calls, c ≠ .fit 4 4 ∧ c ≠ .params 4 ∧ ∀ t', c ≠ .fit 1 t' ∧ c ≠ .fit 5 t' := by
  unfold Learner.after
  induction calls generalizing L with
  | nil => simp
  | cons c calls ih =>
    rw [List.foldl_cons, ih]
    have : (L.bind c).fwd = .plain ↔ L.fwd = .plain ∧ (c ≠ .fit 4 4 ∧ c ≠ .params 4 ∧ ∀ t', c ≠ .fit 1 t' ∧ c ≠ .fit 5 t') := by
      cases c with
      | fit m t =>
        by_cases h1 : m = 1
        · subst h1; simp [Learner.bind]
        by_cases h4 : m = 4
        · subst h4
          by_cases h : t = 4 <;> simp [Learner.bind, h]
        by_cases h5 : m = 5
        · subst h5
          by_cases h : t = 4 <;> simp [Learner.bind, h]
        simp [Learner.bind, h1, h4, h5]
      | params t => by_cases h : t = 4 <;> simp [Learner.bind, h]
    rw [this]
    simp only [List.mem_cons, forall_eq_or_imp]
    tauto

theorem after_ready (calls : List Call) (L : Learner) :
    (L.after calls).ready = true ↔ L.ready = true ∨ ∃ c ∈ calls, ∃ m t, c = .fit m t := by
  unfold Learner.after
  induction calls generalizing L with
  | nil => simp
  | cons c calls ih =>
    rw [List.foldl_cons, ih]
    have : (L.bind c).ready = true ↔ L.ready = true ∨ ∃ m t, c = .fit m t := by
      cases c with
      | fit m t =>
        have : (L.bind (.fit m t)).ready = true := by
          unfold Learner.bind
          simp only
          split_ifs <;> rfl
        simp [this]
      | params t => simp [Learner.bind]
    rw [this]
    simp only [List.mem_cons, exists_eq_or_imp]
    rw [or_assoc]

/-- What a training call returns on a learner with a given history. -/
def outcome {R : Type} (history : List Call) (c : Call) (run : Py R) : Py R := ((Learner.fresh.after history).train c run).2

theorem outcome_eq {R : Type} (history : List Call) (c : Call) (run : Py R) :
    outcome history c run = (Learner.fresh.after (history ++ [c])).firstCall c >>= fun _ => run := by
  simp [outcome, Learner.train, Learner.after]

theorem disturbed_iff (history : List Call) (c : Call) :
    Undisturbed history c ↔
      match c with
      | .fit m t => m = 5 ∨ ((Learner.fresh.after history).pctmc ≠ true ∧ (m = 1 ∨ (m = 4 ∧ t = 4) ∨ (Learner.fresh.after history).fwd = .plain))
      | .params _ => (Learner.fresh.after history).ready ≠ true := by
  cases c with
  | fit m t =>
    simp only [Undisturbed, ne_eq, after_pctmc, after_fwd]
    by_cases h5 : m = 5
    · simp [h5]
    rw [if_neg h5]
    have hp : (¬ (Learner.fresh.pctmc = true ∨ ∃ c ∈ history, ∃ t, c = .fit 5 t ∨ c = .params t)) ↔
        ∀ c ∈ history, ∀ t', ¬ c = .fit 5 t' ∧ ¬ c = .params t' := by
      simp [Learner.fresh]
    by_cases hc : m = 1 ∨ m = 4 ∧ t = 4
    · rw [if_pos hc, hp]
      constructor
      · intro h
        exact Or.inr ⟨h, hc.imp_right Or.inl⟩
      · rintro (h | ⟨h, _⟩)
        · exact absurd h h5
        · exact h
    · rw [if_neg hc, hp]
      have : Learner.fresh.fwd = .plain := rfl
      constructor
      · intro h
        refine Or.inr ⟨fun c hc t' => ⟨((h c hc).2 t').2.1, ((h c hc).2 t').2.2⟩, Or.inr (Or.inr ⟨this, fun c hc => ?_⟩)⟩
        exact ⟨(h c hc).1, ((h c hc).2 4).2.2, fun t' => ⟨((h c hc).2 t').1, ((h c hc).2 t').2.1⟩⟩
      · rintro (h | ⟨h1, h | h | ⟨_, h2⟩⟩)
        · exact absurd h h5
        · exact absurd (Or.inl h) hc
        · exact absurd (Or.inr h) hc
        · exact fun c hc => ⟨(h2 c hc).1, fun t' => ⟨((h2 c hc).2.2 t').1, (h1 c hc t').1, (h1 c hc t').2⟩⟩
  | params t =>
    simp only [Undisturbed, ne_eq, after_ready]
    simp [Learner.fresh]
    exact ⟨fun h x y hm => h _ hm x y rfl, fun h c hc m t e => h m t (e ▸ hc)⟩

/-- C57, partial: a call that the earlier ones do not disturb returns what it returns on a new learner. -/
theorem reuse_partial {R : Type} (history : List Call) (c : Call) (run : Py R) (h : Undisturbed history c) :
    outcome history c run = outcome [] c run := by
  rw [disturbed_iff] at h
  unfold outcome Learner.train
  generalize Learner.fresh.after history = L at h
  have h0 : Learner.fresh.after [] = Learner.fresh := rfl
  rw [h0]
  cases c with
  | fit m t =>
    simp only at h ⊢
    by_cases h5 : m = 5
    · subst h5; simp [Learner.firstCall]
    rcases h with h | ⟨h1, h⟩
    · exact absurd h h5
    by_cases hm1 : m = 1
    · subst hm1; simp [Learner.firstCall, Learner.bind, h1, Learner.fresh]
    by_cases hm4 : m = 4 ∧ t = 4
    · obtain ⟨rfl, rfl⟩ := hm4
      simp [Learner.firstCall, Learner.bind, h1, Learner.fresh]
    have hf : L.fwd = .plain := by tauto
    have hb : ∀ L : Learner, L.bind (.fit m t) = { L with ready := true } := by
      intro L
      by_cases h4 : m = 4
      · have : t ≠ 4 := fun h => hm4 ⟨h4, h⟩
        simp [Learner.bind, h4, this]
      · simp [Learner.bind, hm1, h4, h5]
    rw [hb, hb]
    simp [Learner.firstCall, hf, h1, Learner.fresh]
  | params t =>
    simp only at h ⊢
    simp [Learner.firstCall, h, Learner.bind, Learner.fresh]

/-- C57 fails in all the other cases of `fit`: the call raises, whatever it does on a new learner. -/
theorem reuse_disturbed {R : Type} (history : List Call) (m t : ℕ) (run : Py R) (h : ¬ Undisturbed history (.fit m t)) :
    (outcome history (.fit m t) run = .error .typeError ∨ outcome history (.fit m t) run = .error .attributeError) ∧
      outcome [] (.fit m t) run = run := by
  rw [disturbed_iff] at h
  unfold outcome Learner.train
  generalize Learner.fresh.after history = L at h
  have h0 : Learner.fresh.after [] = Learner.fresh := rfl
  rw [h0]
  simp only [not_or, not_and, ne_eq] at h ⊢
  obtain ⟨h5, h⟩ := h
  have hp : ∀ L : Learner, (L.bind (.fit m t)).pctmc = L.pctmc := by
    intro L
    by_cases h1 : m = 1
    · simp [Learner.bind, h1]
    by_cases h4 : m = 4
    · by_cases h : t = 4 <;> simp [Learner.bind, h4, h]
    simp [Learner.bind, h1, h4, h5]
  constructor
  · by_cases hpc : L.pctmc = true
    · right
      simp only [Learner.firstCall, if_neg h5, hp, hpc, if_true]
      rfl
    · obtain ⟨h1, h4, hf⟩ := h hpc
      have hb : L.bind (.fit m t) = { L with ready := true } := by
        by_cases hm4 : m = 4
        · simp [Learner.bind, hm4, h4 hm4]
        · simp [Learner.bind, h1, hm4, h5]
      have hn4 : ¬ (m = 4 ∧ t = 4) := fun h => h4 h.1 h.2
      simp only [hb, Learner.firstCall, if_neg h5, if_neg hpc, if_neg h1, if_neg hn4]
      cases hL : L.fwd with
      | plain => exact absurd hL hf
      | timed =>
        by_cases h3 : m = 3
        · right; rw [if_pos h3]; rfl
        · left; rw [if_neg h3]; rfl
      | mdp => left; rfl
      | matrix => left; rfl
      | timedMatrix => left; rfl
  · have hpf : (Learner.fresh.bind (.fit m t)).pctmc = false := by rw [hp]; rfl
    simp only [Learner.firstCall, if_neg h5, hpf]
    by_cases h1 : m = 1
    · simp only [if_pos h1]; rfl
    by_cases h4 : m = 4 ∧ t = 4
    · simp only [if_neg h1, if_pos h4]; rfl
    have hb : Learner.fresh.bind (.fit m t) = { Learner.fresh with ready := true } := by
      by_cases hm4 : m = 4
      · have ht : t ≠ 4 := fun h => h4 ⟨hm4, h⟩
        simp [Learner.bind, hm4, ht]
      · simp [Learner.bind, h1, hm4, h5]
    simp only [if_neg h1, if_neg h4, hb]
    rfl

/-- Estimating parameters works exactly on a learner whose `fit` was called before, and, for an untimed set, whose earlier
calls left the class's own functions in place: on a new learner it always raises an AttributeError. -/
theorem params_outcome {R : Type} (history : List Call) (t : ℕ) (run : Py R) :
    ((∀ c ∈ history, ∀ m t', c ≠ .fit m t') → outcome history (.params t) run = .error .attributeError) ∧
      ((∃ c ∈ history, ∃ m t', c = .fit m t') →
        ((t = 4 ∨ ∀ c ∈ history, c ≠ .fit 4 4 ∧ c ≠ .params 4 ∧ ∀ t', c ≠ .fit 1 t' ∧ c ≠ .fit 5 t') →
          outcome history (.params t) run = run) ∧
        (¬ (t = 4 ∨ ∀ c ∈ history, c ≠ .fit 4 4 ∧ c ≠ .params 4 ∧ ∀ t', c ≠ .fit 1 t' ∧ c ≠ .fit 5 t') →
          outcome history (.params t) run = .error .typeError)) := by
  have hr : (Learner.fresh.after history).ready = true ↔ ∃ c ∈ history, ∃ m t', c = .fit m t' := by
    rw [after_ready]; simp [Learner.fresh]
  have hn : (∀ c ∈ history, ∀ m t', c ≠ .fit m t') ↔ ¬ (Learner.fresh.after history).ready = true := by
    rw [hr]; push Not; rfl
  have hf : (Learner.fresh.after history).fwd = .plain ↔
      ∀ c ∈ history, c ≠ .fit 4 4 ∧ c ≠ .params 4 ∧ ∀ t', c ≠ .fit 1 t' ∧ c ≠ .fit 5 t' := by
    rw [after_fwd]; simp [Learner.fresh]
  rw [← hf, hn, ← hr]
  unfold outcome Learner.train
  generalize Learner.fresh.after history = L
  refine ⟨fun h => ?_, fun h => ⟨fun h4 => ?_, fun h4 => ?_⟩⟩
  · simp only [Learner.firstCall, Learner.bind, h]
    rfl
  · by_cases ht : t = 4
    · simp only [Learner.firstCall, Learner.bind, h, ht]; rfl
    · have hL : L.fwd = .plain := h4.resolve_left ht
      simp only [Learner.firstCall, Learner.bind, h, ht, hL]; rfl
  · obtain ⟨ht, hL⟩ := not_or.1 h4
    simp only [Learner.firstCall, Learner.bind, h, ht]
    cases hw : L.fwd with
    | plain => exact absurd hw hL
    | _ => rfl

/-- On a new learner `fit_parameters` raises, whatever the model and the traces; after a `fit` of an MC it runs. -/
example : outcome [] (.params 4) (.ok 7) = .error .attributeError ∧ outcome [.fit 0 0] (.params 0) (.ok 7) = .ok 7 ∧
    outcome [.fit 1 1] (.params 0) (.ok 7) = .error .typeError := ⟨rfl, rfl, rfl⟩

/-- Both cases occur: learning an MC after a GoHMM and an untimed CTMC is not disturbed, learning it after an MDP is. -/
example : Undisturbed [.fit 3 3, .fit 4 0] (.fit 0 0) ∧ ¬ Undisturbed [.fit 1 1] (.fit 0 0) ∧
    outcome [.fit 1 1] (.fit 0 0) (.ok 7) = .error .typeError ∧ outcome [] (.fit 0 0) (.ok 7) = .ok 7 ∧
    outcome [.fit 5 4] (.fit 1 1) (.ok 7) = .error .attributeError := by
  refine ⟨by simp [Undisturbed], by simp [Undisturbed], rfl, rfl, rfl⟩

/-! ### C59: what a call changes -/

section World

variable {H : Type}

theorem fitObj_ok (kind : α → Kind) (init : α) (m : ℕ) (step : TSet α → H → Py (H × ℝ)) (epsilon : ℝ) (maxIt : ℕ)
    (W W' : World α H) (arg : TrainArg α) (h r : ℕ) (hf : fitObj kind init m step epsilon maxIt W arg h = .ok (W', r)) :
    ∃ M mem S A st, W.models[h]? = some M ∧ getTrainingSet kind init (some m) W.traces arg = .ok (mem, S, A) ∧
      refused (S.type.getD 0) m = false ∧ BW.fit (step (S.content mem)) epsilon maxIt M = .ok st ∧
      W' = ⟨mem, W.models.set h st.h⟩ ∧ r = h := by
  unfold fitObj at hf
  cases hM : W.models[h]? with
  | none => rw [hM] at hf; cases hf
  | some M =>
    rw [hM] at hf
    simp only [bind, Except.bind] at hf
    cases hg : getTrainingSet kind init (some m) W.traces arg with
    | error e => rw [hg] at hf; cases hf
    | ok q =>
      rw [hg] at hf
      simp only at hf
      split_ifs at hf with hr
      cases hb : BW.fit (step (q.2.1.content q.1)) epsilon maxIt M with
      | error e => rw [hb] at hf; cases hf
      | ok st =>
        rw [hb] at hf
        injection hf with hf
        obtain ⟨h1, h2⟩ := Prod.mk.inj hf
        exact ⟨M, q.1, q.2.1, q.2.2, st, rfl, rfl, by simpa using hr, hb, h1.symm, h2.symm⟩

/-- C59 fails for the initial model: the object returned is the caller's, and it now holds the learned model. The other
models in the caller's hands are left alone. -/
theorem fit_returns_callers_object (kind : α → Kind) (init : α) (m : ℕ) (step : TSet α → H → Py (H × ℝ)) (epsilon : ℝ) (maxIt : ℕ)
    (W W' : World α H) (arg : TrainArg α) (h r : ℕ) (hf : fitObj kind init m step epsilon maxIt W arg h = .ok (W', r)) :
    r = h ∧ (∀ h', h' ≠ h → W'.models[h']? = W.models[h']?) ∧
    ∃ M S mem st, W.models[h]? = some M ∧ BW.fit (step (SetObj.content mem S)) epsilon maxIt M = .ok st ∧ W'.models[h]? = some st.h := by
  obtain ⟨M, mem, S, A, st, h1, h2, h3, h4, rfl, rfl⟩ := fitObj_ok _ _ _ _ _ _ _ _ _ _ _ hf
  refine ⟨rfl, fun h' hne => ?_, M, S, mem, st, h1, h4, ?_⟩
  · simp [hne.symm]
  · have := (List.getElem?_eq_some_iff.1 h1).1
    simp [this]

/-- C59, partial: traces given as a list (of lists) are not changed … -/
theorem fit_list_unchanged_partial (kind : α → Kind) (init : α) (m : ℕ) (step : TSet α → H → Py (H × ℝ)) (epsilon : ℝ) (maxIt : ℕ)
    (W W' : World α H) (l : List (List α)) (h r : ℕ) (hf : fitObj kind init m step epsilon maxIt W (.list l) h = .ok (W', r)) :
    ∀ a < W.traces.length, W'.traces[a]? = W.traces[a]? := by
  obtain ⟨M, mem, S, A, st, h1, h2, h3, h4, rfl, rfl⟩ := fitObj_ok _ _ _ _ _ _ _ _ _ _ _ hf
  intro a ha
  unfold getTrainingSet at h2
  simp only [bind, Except.bind] at h2
  cases hr : resolve kind W.traces (.list l) with
  | error e => rw [hr] at h2; cases h2
  | ok q =>
    obtain ⟨mem1, S1⟩ := q
    rw [hr] at h2
    have hmem : ∃ ss, mem1 = W.traces ++ ss ∧ ∀ r ∈ S1.refs, W.traces.length ≤ r := by
      unfold resolve at hr
      simp only [bind, Except.bind] at hr
      cases hT : TSet.mk' kind l none none with
      | error e => rw [hT] at hr; cases hr
      | ok T =>
        rw [hT] at hr
        injection hr with hr
        obtain ⟨hr1, hr2⟩ := Prod.mk.inj hr
        refine ⟨T.sequences, hr1.symm, ?_⟩
        rw [← hr2]
        intro r hr
        exact (List.mem_range'_1.1 hr).1
    obtain ⟨ss, rfl, hrefs⟩ := hmem
    have happ : (W.traces ++ ss)[a]? = W.traces[a]? := List.getElem?_append_left ha
    simp only at h2 ⊢
    split_ifs at h2 with hc
    · cases hA : (S1.content (W.traces ++ ss)).getAlphabet with
      | error e => rw [hA] at h2; cases h2
      | ok A' =>
        rw [hA] at h2
        simp only at h2
        by_cases hi : init ∉ A'
        · rw [if_pos hi] at h2
          injection h2 with h2
          obtain ⟨h2, _⟩ := Prod.mk.inj h2
          rw [← h2, insertInit_getElem?, List.count_eq_zero_of_not_mem (fun h => absurd (hrefs a h) (by omega)), happ]
          cases W.traces[a]? <;> simp
        · rw [if_neg hi] at h2
          injection h2 with h2
          obtain ⟨h2, _⟩ := Prod.mk.inj h2
          rw [← h2, happ]
    · injection h2 with h2
      obtain ⟨h2, _⟩ := Prod.mk.inj h2
      rw [← h2, happ]

/-- … nor are those of a `Set` for an HMM, of vectors, or with the initial label in some trace. -/
theorem fit_set_unchanged_partial (kind : α → Kind) (init : α) (m : ℕ) (step : TSet α → H → Py (H × ℝ)) (epsilon : ℝ) (maxIt : ℕ)
    (W W' : World α H) (S : SetObj) (h r : ℕ) (hf : fitObj kind init m step epsilon maxIt W (.obj S) h = .ok (W', r))
    (hc : m = 2 ∨ S.type = some 3 ∨ ∃ t, Labelled W.traces S t ∧ Valid W.traces S ∧ ∃ s ∈ (S.content W.traces).sequences, Occurs t s init) :
    W'.traces = W.traces := by
  obtain ⟨M, mem, S', A, st, h1, h2, h3, h4, rfl, rfl⟩ := fitObj_ok _ _ _ _ _ _ _ _ _ _ _ hf
  by_cases hm : m = 2
  · rw [prepare_HMM _ _ _ _ _ (Or.inl (by rw [hm]))] at h2
    injection h2 with h2
    exact (Prod.mk.inj h2).1.symm
  · rcases hc with hc | hc | ⟨t, hL, hv, ho⟩
    · exact absurd hc hm
    · rw [prepare_HMM _ _ _ _ _ (Or.inr hc)] at h2
      injection h2 with h2
      exact (Prod.mk.inj h2).1.symm
    · obtain ⟨mem', A', e, hu, _⟩ := prepare_spec kind init (some m) (by simpa using hm) W.traces S t hL hv
      rw [e, hu ho] at h2
      injection h2 with h2
      exact (Prod.mk.inj h2).1.symm

/-- C59 fails for the traces of a `Set` without the initial label: the caller's lists are changed. -/
theorem fit_changes_traces (kind : α → Kind) (init : α) (m : ℕ) (hm : m ≠ 2) (step : TSet α → H → Py (H × ℝ)) (epsilon : ℝ) (maxIt : ℕ)
    (W W' : World α H) (S : SetObj) (h r : ℕ) (hf : fitObj kind init m step epsilon maxIt W (.obj S) h = .ok (W', r))
    (t : ℕ) (hL : Labelled W.traces S t) (hv : Valid W.traces S) (ho : ¬ ∃ s ∈ (S.content W.traces).sequences, Occurs t s init) :
    (S.content W'.traces).sequences = (S.content W.traces).sequences.map (init :: ·) := by
  obtain ⟨M, mem, S', A, st, h1, h2, h3, h4, rfl, rfl⟩ := fitObj_ok _ _ _ _ _ _ _ _ _ _ _ hf
  obtain ⟨mem', A', e, _, hu, _⟩ := prepare_spec kind init (some m) (by simpa using hm) W.traces S t hL hv
  rw [e] at h2
  injection h2 with h2
  obtain ⟨h5, _⟩ := Prod.mk.inj h2
  rw [← h5]
  exact (hu ho).1

end World

/-! ### Whole calls -/

/-- Two states labelled 0 (the initial one) and 1. -/
noncomputable def twoStates : MC ℝ ℕ 2 where
  labelling := ![0, 1]
  initialState := ![1, 0]
  matrix := ![![1/2, 1/2], ![0, 1]]

/-- The caller's objects: one trace, one model. -/
noncomputable def aWorld : World ℕ (MC ℝ ℕ 2) := ⟨[[0, 1]], [twoStates]⟩

theorem twoStates_work : ∃ w, BW.processWorkMC twoStates [0, 1] 1 = some w ∧ w.den 0 = 1 ∧ w.num 0 1 = 1 := by
  have hp : BW.lastSum (BW.alphas twoStates.tau twoStates.initialState [0, 1]) = 1/2 := by
    simp [BW.lastSum, BW.alphas, BW.fwd, MC.tau, twoStates, Fin.sum_univ_two]
  unfold BW.processWorkMC
  simp only [hp]
  rw [if_neg (by norm_num)]
  refine ⟨_, rfl, ?_, ?_⟩
  · simp [BW.visits, BW.alphas, BW.betas, BW.fwd, BW.bwd, MC.tau, twoStates, Fin.sum_univ_two]
  · simp [BW.uses, BW.alphas, BW.betas, BW.fwd, BW.bwd, MC.tau, twoStates, Fin.sum_univ_two]

/-- C59 fails: after this call of `fit` on a trace that holds the initial label, the model that the caller passed has
another matrix. -/
theorem fit_changes_callers_model :
    ∃ W' M', fitObj (fun _ => .str) 0 0 (BW.stepMC 1) 0 1 aWorld (.obj ⟨[0], [1], false, some 0⟩) 0 = .ok (W', 0) ∧
      aWorld.models[0]? = some twoStates ∧ W'.models[0]? = some M' ∧ M'.matrix 0 1 = 1 ∧ twoStates.matrix 0 1 = 1/2 := by
  obtain ⟨w, hw, hd, hn⟩ := twoStates_work
  have hwork : BW.workMC 1 (SetObj.content [[0, 1]] ⟨[0], [1], false, some 0⟩) twoStates = .ok [w] := by
    unfold BW.workMC
    show BW.collect .typeError 1 [BW.processWorkMC twoStates [0, 1] 1] = _
    rw [hw]
    rfl
  have hfit : ∃ st, BW.fit (BW.stepMC 1 (SetObj.content [[0, 1]] ⟨[0], [1], false, some 0⟩)) 0 1 twoStates = .ok st ∧
      st.h = BW.updateMC twoStates [w] := by
    unfold BW.fit BW.loop BW.stepMC
    rw [hwork]
    exact ⟨_, rfl, rfl⟩
  obtain ⟨st, hst, hh⟩ := hfit
  have hprep : getTrainingSet (fun _ : ℕ => Kind.str) 0 (some 0) [[0, 1]] (.obj ⟨[0], [1], false, some 0⟩) =
      .ok ([[0, 1]], ⟨[0], [1], false, some 0⟩, some [1]) := by decide
  refine ⟨⟨[[0, 1]], [st.h]⟩, st.h, ?_, rfl, rfl, ?_, by simp [twoStates]⟩
  · unfold fitObj
    simp only [aWorld, List.getElem?_cons_zero, hprep, bind, Except.bind]
    rw [hst]
    rfl
  · rw [hh]
    simp [BW.updateMC, hd, hn]

/-- A hidden Markov model with one state, which emits 0 and 1 equally often. -/
noncomputable def coin : HMM ℝ ℕ 1 where
  alphabet := [0, 1]
  initialState := fun _ => 1
  matrix := fun _ _ => 1
  output := fun _ _ => 1/2

theorem coin_work : ∃ w, BW.processWorkHMM coin [0, 1, 0] 1 = some w  := by
  have hp : BW.lastSum (BW.alphas coin.tau coin.initialState [0, 1, 0]) = 1/8 := by
    have h0 : coin.b 0 0 = 1/2 := by simp [HMM.b, coin]
    have h1 : coin.b 0 1 = 1/2 := by simp [HMM.b, coin]
    simp [BW.lastSum, BW.alphas, BW.fwd, HMM.tau, h0, h1]
    simp [coin]
    norm_num
  unfold BW.processWorkHMM
  simp only [hp]
  rw [if_neg (by norm_num)]
  exact ⟨_, rfl⟩

/-- C44 fails: `fit` learns an HMM from traces of actions and labels; the actions are taken for labels. -/
theorem fit_HMM_accepts_actions :
    ∃ r, fitObj (fun _ => .str) 2 2 (BW.stepHMM 1) 0 1 ⟨[[0, 1, 0]], [coin]⟩ (.obj ⟨[0], [1], false, some 1⟩) 0 = .ok r ∧
      ¬ Usable 1 2 := by
  obtain ⟨w, hw⟩ := coin_work
  have hwork : BW.workHMM 1 (SetObj.content [[0, 1, 0]] ⟨[0], [1], false, some 1⟩) coin = .ok [w] := by
    unfold BW.workHMM
    show BW.collect .typeError 1 [BW.processWorkHMM coin [0, 1, 0] 1] = _
    rw [hw]
    rfl
  have hfit : ∃ st, BW.fit (BW.stepHMM 1 (SetObj.content [[0, 1, 0]] ⟨[0], [1], false, some 1⟩)) 0 1 coin = .ok st := by
    unfold BW.fit BW.loop BW.stepHMM
    rw [hwork]
    exact ⟨_, rfl⟩
  obtain ⟨st, hst⟩ := hfit
  have hprep : getTrainingSet (fun _ : ℕ => Kind.str) 2 (some 2) [[0, 1, 0]] (.obj ⟨[0], [1], false, some 1⟩) =
      .ok ([[0, 1, 0]], ⟨[0], [1], false, some 1⟩, none) := by decide
  refine ⟨(⟨[[0, 1, 0]], [st.h]⟩, 0), ?_, by decide⟩
  unfold fitObj
  simp only [List.getElem?_cons_zero, hprep, bind, Except.bind]
  rw [hst]
  rfl

end Prep
end Jajapy
