import Verif.Props.Finish

/-!
C105: learning in two goes, the second one starting from the model of the first one, is learning in one go.
-/

set_option linter.unusedSectionVars false
set_option autoImplicit false

namespace Jajapy

open BW Spec Files Create

namespace BW

variable {H : Type} (step : H → Py (H × ℝ)) (epsilon : ℝ)

/-- The counter does not matter. -/
theorem loop_shift (d fuel : ℕ) (st : LoopState H) :
    loop step epsilon fuel { st with counter := st.counter + d } = (loop step epsilon fuel st).map (fun s => { s with counter := s.counter + d }) := by
  induction fuel generalizing st with
  | zero => rfl
  | succ f ih =>
    cases hs : step st.h with
    | error e => rw [loop_error _ _ _ _ _ hs, loop_error _ _ _ { st with counter := st.counter + d } _ hs]; rfl
    | ok r =>
      obtain ⟨h', cur⟩ := r
      rw [loop_succ _ _ _ _ _ _ hs, loop_succ _ _ _ { st with counter := st.counter + d } _ _ hs]
      have := ih ⟨h', st.counter + 1, some cur⟩
      dsimp only at this ⊢
      rw [show st.counter + d + 1 = st.counter + 1 + d by omega]
      split_ifs
      · rfl
      · exact this

/-- A run that goes on after the first `a` iterations. -/
theorem loop_split (a b : ℕ) (st st' : LoopState H) (h : loop step epsilon (a + b) st = .ok st') (hlt : st.counter + a < st'.counter) :
    ∃ st1, loop step epsilon a st = .ok st1 ∧ st1.counter = st.counter + a ∧ loop step epsilon b st1 = .ok st' := by
  induction a generalizing st with
  | zero => exact ⟨st, rfl, rfl, by simpa using h⟩
  | succ a ih =>
    rw [show a + 1 + b = (a + b) + 1 by omega] at h
    cases hs : step st.h with
    | error e => rw [loop_error _ _ _ _ _ hs] at h; cases h
    | ok r =>
      obtain ⟨h', cur⟩ := r
      rw [loop_succ _ _ _ _ _ _ hs] at h ⊢
      split_ifs at h ⊢ with hc
      · obtain rfl := Except.ok.inj h
        simp only at hlt
        omega
      · obtain ⟨st1, h1, h2, h3⟩ := ih _ h (by simp only; omega)
        exact ⟨st1, h1, by rw [h2]; simp only; omega, h3⟩

theorem loop_counter (fuel : ℕ) (st st' : LoopState H) (h : loop step epsilon fuel st = .ok st') : st'.counter ≤ st.counter + fuel := by
  obtain ⟨k, _, _, _, _, _, h4, _, h6, _⟩ := loop_spec _ _ _ _ _ h
  omega

/-- C105: if the learning with `max_it = a + b` makes more than `a + 1` iterations, the learning with `max_it = a` makes `a` iterations, and learning
with `max_it = b` from its model gives the same model and the same log-likelihood, with `a` iterations less. -/
theorem fit_resume (a b : ℕ) (h : H) (st : LoopState H) (hst : fit step epsilon (a + b) h = .ok st) (hlt : a + 1 < st.counter) :
    ∃ st1, fit step epsilon a h = .ok st1 ∧ st1.counter = a ∧ fit step epsilon b st1.h = .ok { st with counter := st.counter - a } := by
  obtain ⟨st1, h1, h2, h3⟩ := loop_split step epsilon a b _ _ hst (by simp only; omega)
  refine ⟨st1, h1, by simpa using h2, ?_⟩
  have h2' : st1.counter = a := by simpa using h2
  have hb := loop_counter step epsilon _ _ _ h3
  obtain ⟨b, rfl⟩ : ∃ c, b = c + 1 := ⟨b - 1, by omega⟩
  unfold fit
  cases hs : step st1.h with
  | error e => rw [loop_error _ _ _ _ _ hs] at h3; cases h3
  | ok r =>
    obtain ⟨h', cur⟩ := r
    rw [loop_succ _ _ _ _ _ _ hs] at h3
    rw [loop_succ _ _ _ ⟨st1.h, 0, none⟩ _ _ hs, if_neg (by simp)]
    split_ifs at h3 with hc
    · obtain rfl := Except.ok.inj h3
      simp only at hlt
      omega
    · have := loop_shift step epsilon a b ⟨h', 1, some cur⟩
      simp only at this
      rw [h2', show a + 1 = 1 + a by omega, this] at h3
      dsimp only
      rw [Nat.zero_add]
      cases e : loop step epsilon b ⟨h', 1, some cur⟩ with
      | error e' => rw [e] at h3; cases h3
      | ok s =>
        rw [e] at h3
        obtain rfl := Except.ok.inj h3
        simp

/-- C105: if the learning with `max_it = a + b` ends with the iteration `a + 1`, that iteration is what one iteration from the model learnt with
`max_it = a` gives. -/
theorem fit_resume_last (a b : ℕ) (h : H) (st : LoopState H) (hst : fit step epsilon (a + b) h = .ok st) (heq : st.counter = a + 1) :
    ∃ st1, fit step epsilon a h = .ok st1 ∧ st1.counter = a ∧ fit step epsilon 1 st1.h = .ok { st with counter := 1 } := by
  obtain ⟨st1, h1, h2, h3⟩ := loop_split step epsilon a b _ _ hst (by simp only; omega)
  refine ⟨st1, h1, by simpa using h2, ?_⟩
  have h2' : st1.counter = a := by simpa using h2
  have hb := loop_counter step epsilon _ _ _ h3
  obtain ⟨b, rfl⟩ : ∃ c, b = c + 1 := ⟨b - 1, by omega⟩
  unfold fit
  cases hs : step st1.h with
  | error e => rw [loop_error _ _ _ _ _ hs] at h3; cases h3
  | ok r =>
    obtain ⟨h', cur⟩ := r
    rw [loop_succ _ _ _ _ _ _ hs] at h3
    rw [loop_succ _ _ _ ⟨st1.h, 0, none⟩ _ _ hs, if_neg (by simp), loop_zero]
    split_ifs at h3 with hc
    · obtain rfl := Except.ok.inj h3
      rfl
    · cases b with
      | zero =>
        obtain rfl := Except.ok.inj h3
        rfl
      | succ b =>
        exfalso
        have : st1.counter + 1 + 1 ≤ st.counter := by
          cases hs' : step h' with
          | error e => rw [loop_error _ _ _ _ _ hs'] at h3; cases h3
          | ok r =>
            rw [loop_succ _ _ _ _ r.1 r.2 hs'] at h3
            split_ifs at h3
            · obtain rfl := Except.ok.inj h3
              exact le_refl _
            · obtain ⟨k, _, _, _, _, _, h4, _⟩ := loop_spec _ _ _ _ _ h3
              rw [h4]
              simp only
              omega
        omega

/-- C105: if the learning with `max_it = a + b` ends before, a smaller `max_it` gives the same. -/
theorem fit_shorter (a b : ℕ) (h : H) (st : LoopState H) (hst : fit step epsilon (a + b) h = .ok st) (hle : st.counter ≤ a) :
    fit step epsilon a h = .ok st := by
  have key : ∀ a (s : LoopState H), loop step epsilon (a + b) s = .ok st → st.counter ≤ s.counter + a → loop step epsilon a s = .ok st := by
    intro a
    induction a with
    | zero =>
      intro s hs hl
      obtain ⟨k, hk, ls, a1, a2, a3, a4, a5, a6, a7, a8⟩ := loop_spec _ _ _ _ _ hs
      have : k = 0 := by omega
      subst this
      rcases a8 with a8 | ⟨j, _, hj, _⟩
      · rw [Nat.zero_add] at a8 hs
        rw [← a8] at hs
        exact hs
      · omega
    | succ a ih =>
      intro s hs hl
      rw [show a + 1 + b = (a + b) + 1 by omega] at hs
      cases hr : step s.h with
      | error e => rw [loop_error _ _ _ _ _ hr] at hs; cases hs
      | ok r =>
        rw [loop_succ _ _ _ _ r.1 r.2 hr] at hs ⊢
        split_ifs at hs ⊢
        · exact hs
        · exact ih _ hs (by simp only; omega)
  exact key a _ hst (by simpa using hle)

/-- C105: a learning that raises also raises in two goes. -/
theorem fit_resume_error (a b : ℕ) (h : H) (e : Err) (hst : fit step epsilon (a + b) h = .error e) :
    fit step epsilon a h = .error e ∨ ∃ st1, fit step epsilon a h = .ok st1 ∧ st1.counter = a ∧ fit step epsilon b st1.h = .error e := by
  have key : ∀ a (s : LoopState H), loop step epsilon (a + b) s = .error e → loop step epsilon a s = .error e ∨
      ∃ s1, loop step epsilon a s = .ok s1 ∧ s1.counter = s.counter + a ∧ loop step epsilon b s1 = .error e := by
    intro a
    induction a with
    | zero => exact fun s hs => .inr ⟨s, rfl, rfl, by simpa using hs⟩
    | succ a ih =>
      intro s hs
      rw [show a + 1 + b = (a + b) + 1 by omega] at hs
      cases hr : step s.h with
      | error e' =>
        rw [loop_error _ _ _ _ _ hr] at hs ⊢
        exact .inl hs
      | ok r =>
        rw [loop_succ _ _ _ _ r.1 r.2 hr] at hs ⊢
        split_ifs at hs ⊢ with hc
        rcases ih _ hs with h | ⟨s1, h1, h2, h3⟩
        · exact .inl h
        · exact .inr ⟨s1, h1, by rw [h2]; simp only; omega, h3⟩
  rcases key a _ hst with h1 | ⟨s1, h1, h2, h3⟩
  · exact .inl h1
  · refine .inr ⟨s1, h1, by simpa using h2, ?_⟩
    cases b with
    | zero => cases h3
    | succ b =>
      unfold fit
      cases hr : step s1.h with
      | error e' =>
        rw [loop_error _ _ _ _ _ hr] at h3
        rw [loop_error _ _ _ ⟨s1.h, 0, none⟩ _ hr]
        exact h3
      | ok r =>
        rw [loop_succ _ _ _ _ r.1 r.2 hr] at h3
        rw [loop_succ _ _ _ ⟨s1.h, 0, none⟩ r.1 r.2 hr, if_neg (by simp)]
        split_ifs at h3 with hc
        have := loop_shift step epsilon s1.counter b ⟨r.1, 1, some r.2⟩
        simp only at this
        rw [show s1.counter + 1 = 1 + s1.counter by omega, this] at h3
        dsimp only
        rw [Nat.zero_add]
        cases e1 : loop step epsilon b ⟨r.1, 1, some r.2⟩ with
        | error e' => rw [e1] at h3; exact h3
        | ok s => rw [e1] at h3; cases h3

/-- What the second go adds to the first one. -/
def LoopState.after {H : Type} (s t : LoopState H) : LoopState H := ⟨t.h, s.counter + t.counter, t.ll <|> s.ll⟩

/-- C105: if the log-likelihood never decreases and `epsilon` is not positive, learning in two goes is learning in one go, whatever happens. -/
theorem fit_add (he : epsilon ≤ 0) (Inv : H → Prop)
    (hinv : ∀ h h' l, Inv h → step h = .ok (h', l) → Inv h' ∧ ∀ h'' l', step h' = .ok (h'', l') → l ≤ l') (a b : ℕ) (h : H) (hi : Inv h) :
    fit step epsilon (a + b) h = fit step epsilon a h >>= fun s => (fit step epsilon b s.h).map s.after := by
  -- a state is fine when the next value is not smaller
  have never : ∀ fuel (s : LoopState H), Inv s.h → (∀ p h' l, s.ll = some p → step s.h = .ok (h', l) → p ≤ l) →
      ∀ h' l, step s.h = .ok (h', l) → loop step epsilon (fuel + 1) s = loop step epsilon fuel ⟨h', s.counter + 1, some l⟩ := by
    intro fuel s _ hf h' l hs
    rw [loop_succ _ _ _ _ _ _ hs, if_neg]
    rintro ⟨p, hp, hlt⟩
    have := hf p h' l hp hs
    linarith
  have fresh : ∀ b (s : LoopState H), Inv s.h → (∀ p h' l, s.ll = some p → step s.h = .ok (h', l) → p ≤ l) →
      loop step epsilon b s = (fit step epsilon b s.h).map s.after := by
    intro b s hi hf
    cases b with
    | zero =>
      simp only [fit, loop_zero, Except.map, LoopState.after]
      cases s with
      | mk h c ll => cases ll <;> rfl
    | succ b =>
      unfold fit
      cases hs : step s.h with
      | error e => rw [loop_error _ _ _ _ _ hs, loop_error _ _ _ ⟨s.h, 0, none⟩ _ hs]; rfl
      | ok r =>
        obtain ⟨h', l⟩ := r
        rw [never b s hi hf h' l hs, never b ⟨s.h, 0, none⟩ hi (fun p _ _ hp => by cases hp) h' l hs]
        have := loop_shift step epsilon s.counter b ⟨h', 1, some l⟩
        simp only at this
        rw [show s.counter + 1 = 1 + s.counter by omega, this]
        dsimp only
        rw [Nat.zero_add]
        cases e : loop step epsilon b ⟨h', 1, some l⟩ with
        | error e => rfl
        | ok t =>
          simp only [Except.map, LoopState.after]
          have hl : ∃ x, t.ll = some x := by
            obtain ⟨k, _, ls, _, _, _, _, h5, _⟩ := loop_spec _ _ _ _ _ e
            cases k with
            | zero => exact ⟨_, h5⟩
            | succ k => exact ⟨_, h5⟩
          obtain ⟨x, hx⟩ := hl
          rw [hx, Nat.add_comm t.counter]
          congr 2
  have key : ∀ a (s : LoopState H), Inv s.h → (∀ p h' l, s.ll = some p → step s.h = .ok (h', l) → p ≤ l) →
      loop step epsilon (a + b) s = loop step epsilon a s >>= fun s' => (fit step epsilon b s'.h).map s'.after := by
    intro a
    induction a with
    | zero =>
      intro s hi hf
      rw [Nat.zero_add]
      exact fresh b s hi hf
    | succ a ih =>
      intro s hi hf
      rw [show a + 1 + b = (a + b) + 1 by omega]
      cases hs : step s.h with
      | error e => rw [loop_error _ _ _ _ _ hs, loop_error _ _ _ _ _ hs]; rfl
      | ok r =>
        obtain ⟨h', l⟩ := r
        obtain ⟨i1, i2⟩ := hinv _ _ _ hi hs
        rw [never _ s hi hf h' l hs, never _ s hi hf h' l hs]
        refine ih _ i1 ?_
        intro p h'' l' hp hs'
        obtain rfl := Option.some.inj hp
        exact i2 _ _ hs'
  exact key a _ hi (fun p _ _ hp => by cases hp)

end BW

/-! ### The models -/

section
variable {L : Type} [DecidableEq L] {n : ℕ}

/-- C105, MC. -/
theorem MC.fit_add (processes : ℕ) (S : TSet L) (epsilon : ℝ) (he : epsilon ≤ 0) (a b : ℕ) (M : MC ℝ L n) (hM : M.Stochastic)
    (hne : ∀ w ∈ S.sequences, w ≠ []) (hlen : S.times.length = S.sequences.length) (ht : ∀ t ∈ S.times, 1 ≤ t) :
    fit (stepMC processes S) epsilon (a + b) M = fit (stepMC processes S) epsilon a M >>= fun s => (fit (stepMC processes S) epsilon b s.h).map s.after := by
  refine BW.fit_add _ _ he MC.Stochastic ?_ a b M hM
  intro h h' l hi hs
  have hi' := MC.bw_step_keeps_stochastic _ _ _ _ _ hi hs
  refine ⟨hi', fun h'' l' hs' => ?_⟩
  obtain ⟨m1, _, m3⟩ := h.bw_step_monotone _ _ _ _ hi hne hlen ht hs
  rw [m3, (h'.bw_step_monotone _ _ _ _ hi' hne hlen ht hs').2.2]
  exact mul_le_mul_of_nonneg_left m1 (Nat.cast_nonneg _)

/-- C105, HMM. -/
theorem HMM.fit_add (processes : ℕ) (S : TSet L) (epsilon : ℝ) (he : epsilon ≤ 0) (a b : ℕ) (M : HMM ℝ L n) (hnd : M.alphabet.Nodup) (hM : M.Stochastic)
    (hne : ∀ w ∈ S.sequences, w ≠ []) (hlen : S.times.length = S.sequences.length) (ht : ∀ t ∈ S.times, 1 ≤ t) :
    fit (stepHMM processes S) epsilon (a + b) M = fit (stepHMM processes S) epsilon a M >>= fun s => (fit (stepHMM processes S) epsilon b s.h).map s.after := by
  refine BW.fit_add _ _ he (fun M => M.alphabet.Nodup ∧ M.Stochastic) ?_ a b M ⟨hnd, hM⟩
  rintro h h' l ⟨hd, hi⟩ hs
  have hd' : h'.alphabet.Nodup := by rw [HMM.bw_step_alphabet _ _ _ _ _ hs]; exact hd
  have hi' := h.bw_step_stochastic _ _ _ _ hd hi ht hs
  refine ⟨⟨hd', hi'⟩, fun h'' l' hs' => ?_⟩
  obtain ⟨m1, _, m3⟩ := h.bw_step_monotone _ _ _ _ hd hi hne hlen ht hs
  rw [m3, (h'.bw_step_monotone _ _ _ _ hd' hi' hne hlen ht hs').2.2]
  exact mul_le_mul_of_nonneg_left m1 (Nat.cast_nonneg _)

/-- C105, MDP. -/
theorem MDP.fit_add (processes : ℕ) (S : TSet L) (epsilon : ℝ) (he : epsilon ≤ 0) (a b : ℕ) (M : MDP ℝ L n) (hn : M.actions.Nodup) (hM : M.Stochastic)
    (ho : ∀ w ∈ S.sequences, w.length % 2 = 1) (hlen : S.times.length = S.sequences.length) (ht : ∀ t ∈ S.times, 1 ≤ t) :
    fit (stepMDP processes S) epsilon (a + b) M = fit (stepMDP processes S) epsilon a M >>= fun s => (fit (stepMDP processes S) epsilon b s.h).map s.after := by
  refine BW.fit_add _ _ he (fun M : MDP ℝ L n => M.actions.Nodup ∧ M.Stochastic) ?_ a b M ⟨hn, hM⟩
  rintro h h' l ⟨hd, hi⟩ hs
  have hd' : h'.actions.Nodup := by rw [(h.bw_step_keeps _ _ _ _ hs).1]; exact hd
  have hi' := (h.bw_step_stochastic _ _ _ _ hd hi ho hs).1
  refine ⟨⟨hd', hi'⟩, fun h'' l' hs' => ?_⟩
  obtain ⟨m1, _, m3⟩ := h.bw_step_monotone _ _ _ _ hd hi ho hlen ht hs
  rw [m3, (h'.bw_step_monotone _ _ _ _ hd' hi' ho hlen ht hs').2.2]
  exact mul_le_mul_of_nonneg_left m1 (Nat.cast_nonneg _)

/-- C105, CTMC with timed traces. -/
theorem CTMC.fit_add (processes : ℕ) (fixed : Fin n → Fin n → Bool) (S : TSet (Sym L)) (epsilon : ℝ) (he : epsilon ≤ 0) (a b : ℕ) (M : CTMC ℝ L n) (hM : M.Valid)
    (hS : TimedSet S) (hw : WaitsNonneg S) (hlen : S.times.length = S.sequences.length) (ht : ∀ t ∈ S.times, 1 ≤ t) :
    fit (stepTimed processes fixed S) epsilon (a + b) M =
      fit (stepTimed processes fixed S) epsilon a M >>= fun s => (fit (stepTimed processes fixed S) epsilon b s.h).map s.after := by
  refine BW.fit_add _ _ he (fun M : CTMC ℝ L n => M.Valid) ?_ a b M hM
  intro h h' l hi hs
  have hi' := h.bw_step_valid _ _ _ _ _ hi hS hw hs
  refine ⟨hi', fun h'' l' hs' => ?_⟩
  obtain ⟨m1, _, m3⟩ := h.bw_step_monotone _ _ _ _ _ hi hS hw hlen ht hs
  rw [m3, (h'.bw_step_monotone _ _ _ _ _ hi' hS hw hlen ht hs').2.2]
  exact mul_le_mul_of_nonneg_left m1 (Nat.cast_nonneg _)

end

/-! ### From the file of the first go -/

section
variable {n : ℕ} (printable : Char → Bool) (IO : FloatIO ℝ)

/-- C105, MC: the second go can start from the file of the first one. -/
theorem MC.resume_file (matrix : Fin n → Fin n → ℝ) (lab : List String) (M : MC ℝ String n) (name : List Char) (o : Options) (processes : ℕ) (S : TSet String)
    (epsilon : ℝ) (a b : ℕ) (st st1 : LoopState (MC ℝ String n)) (hM : mkMC matrix lab = .ok M) (hS : M.Stochastic) (hn : OneLine name) (ho : o.file = true)
    (hst : fit (stepMC processes S) epsilon (a + b) M = .ok st) (hlt : a + 1 < st.counter) (h1 : fit (stepMC processes S) epsilon a M = .ok st1)
    (hm : ∀ i j, IO.dom (st1.h.matrix i j)) (hi : ∀ s, IO.dom (st1.h.initialState s)) :
    ∃ t M', (callMC printable IO name o processes S epsilon a M).file = some t ∧ loadMC IO t = .ok (name, ⟨n, M'⟩) ∧
      fit (stepMC processes S) epsilon b M' = .ok { st with counter := st.counter - a } := by
  obtain ⟨st1', e1, _, e3⟩ := BW.fit_resume _ _ _ _ _ _ hst hlt
  rw [h1] at e1
  obtain rfl := Except.ok.inj e1
  obtain ⟨t, t1, t2⟩ := (MC.call_file printable IO matrix lab M name o processes S epsilon a st1 hM hS h1 hn hm hi).1 ho
  exact ⟨t, st1.h, t1, t2, e3⟩

/-- C105, MDP. -/
theorem MDP.resume_file (actions : List String) (matrix : Fin n → Fin actions.length → Fin n → ℝ) (lab : List String) (M : MDP ℝ String n) (name : List Char)
    (o : Options) (processes : ℕ) (S : TSet String) (epsilon : ℝ) (a b : ℕ) (st st1 : LoopState (MDP ℝ String n)) (hM : mkMDP actions matrix lab = .ok M)
    (hd : M.actions.Nodup) (hS : M.Stochastic) (hodd : ∀ w ∈ S.sequences, w.length % 2 = 1) (hn : OneLine name) (ho : o.file = true)
    (hst : fit (stepMDP processes S) epsilon (a + b) M = .ok st) (hlt : a + 1 < st.counter) (h1 : fit (stepMDP processes S) epsilon a M = .ok st1)
    (hm : ∀ i a j, IO.dom (st1.h.matrix i a j)) (hi : ∀ s, IO.dom (st1.h.initialState s)) :
    ∃ t M', (callMDP printable IO name o processes S epsilon a M).file = some t ∧ loadMDP IO t = .ok (name, ⟨n, M'⟩) ∧
      fit (stepMDP processes S) epsilon b M' = .ok { st with counter := st.counter - a } := by
  obtain ⟨st1', e1, _, e3⟩ := BW.fit_resume _ _ _ _ _ _ hst hlt
  rw [h1] at e1
  obtain rfl := Except.ok.inj e1
  obtain ⟨t, t1, t2⟩ := (MDP.call_file printable IO actions matrix lab M name o processes S epsilon a st1 hM hd hS hodd h1 hn hm hi).1 ho
  exact ⟨t, st1.h, t1, t2, e3⟩

/-- C105, CTMC with timed traces. -/
theorem CTMC.resume_file (matrix : Fin n → Fin n → ℝ) (lab : List String) (M : CTMC ℝ String n) (name : List Char) (o : Options) (processes : ℕ)
    (fixed : Fin n → Fin n → Bool) (S : TSet (Sym String)) (epsilon : ℝ) (a b : ℕ) (st st1 : LoopState (CTMC ℝ String n)) (hM : mkCTMC matrix lab = .ok M)
    (hS : CTMC.TimedSet S) (hn : OneLine name) (ho : o.file = true)
    (hst : fit (stepTimed processes fixed S) epsilon (a + b) M = .ok st) (hlt : a + 1 < st.counter) (h1 : fit (stepTimed processes fixed S) epsilon a M = .ok st1)
    (hm : ∀ i j, IO.dom (st1.h.matrix i j)) (hi : ∀ s, IO.dom (st1.h.initialState s)) :
    ∃ t M', (callCTMC printable IO name o processes fixed S epsilon a M).file = some t ∧ loadCTMC IO t = .ok (name, ⟨n, M'⟩) ∧
      fit (stepTimed processes fixed S) epsilon b M' = .ok { st with counter := st.counter - a } := by
  obtain ⟨st1', e1, _, e3⟩ := BW.fit_resume _ _ _ _ _ _ hst hlt
  rw [h1] at e1
  obtain rfl := Except.ok.inj e1
  obtain ⟨t, t1, t2⟩ := (CTMC.call_file printable IO matrix lab M name o processes fixed S epsilon a st1 hM hS h1 hn hm hi).1 ho
  exact ⟨t, st1.h, t1, t2, e3⟩

end

end Jajapy
