import Verif.Model.IOAlergia
import Mathlib.Logic.Relation
import Mathlib.Data.Set.Card

/-!
The graphs that the merging of states works on, without their representation: a state and a key (an action and an observation) have at
most one transition. `R` is the set of the red states (and of the initial ones), `D` the set of the states that have been merged into another one.
The other states form trees.
-/

namespace Jajapy.IOAlergia

open Relation

abbrev Key := String × String

/-- The transition (count, destination) of a state for a key. -/
abbrev Graph := ℕ → Key → Option (ℕ × ℕ)

def Edge (L : Graph) (x y : ℕ) : Prop := ∃ k c, L x k = some (c, y)

structure Forest (L : Graph) (R D : Set ℕ) : Prop where
  red : ∀ x ∈ R, x ∉ D
  noDead : ∀ {x y}, Edge L x y → y ∉ D
  uniq : ∀ {x x' k k' c c' y}, x ∉ D → x' ∉ D → y ∉ R → L x k = some (c, y) → L x' k' = some (c', y) → x = x' ∧ k = k'
  up : ∀ {x y}, x ∉ D → Edge L x y → y ∈ R → x ∈ R

def Tree (L : Graph) (R D : Set ℕ) (x y : ℕ) : Prop := x ∉ R ∧ x ∉ D ∧ Edge L x y

abbrev Below (L : Graph) (R D : Set ℕ) : ℕ → ℕ → Prop := ReflTransGen (Tree L R D)

def Orphan (L : Graph) (R D : Set ℕ) (t : ℕ) : Prop := t ∉ D ∧ t ∉ R ∧ ∀ x, x ∉ D → ¬ Edge L x t

def Attached (L : Graph) (R D : Set ℕ) (z : ℕ) : Prop := z ∉ D ∧ ∀ t, Orphan L R D t → ¬ Below L R D t z

theorem rtg_mono {r p : ℕ → ℕ → Prop} (h : ∀ x y, r x y → p x y) {x y : ℕ} (hb : ReflTransGen r x y) : ReflTransGen p x y := by
  induction hb with
  | refl => exact .refl
  | tail _ e ih => exact .tail ih (h _ _ e)

/-- The state reached from `x` by a list of keys. -/
def run (L : Graph) : ℕ → List Key → Option ℕ
  | x, [] => some x
  | x, k :: w => match L x k with
    | none => none
    | some (_, y) => run L y w

section
variable {L L' L'' : Graph} {R D D' D'' : Set ℕ}

theorem Forest.below_live (F : Forest L R D) {t z : ℕ} (hR : t ∉ R) (hD : t ∉ D) (h : Below L R D t z) : z ∉ R ∧ z ∉ D := by
  induction h with
  | refl => exact ⟨hR, hD⟩
  | tail _ e ih => exact ⟨fun hr => e.1 (F.up e.2.1 e.2.2 hr), F.noDead e.2.2⟩

theorem Forest.attached_red (F : Forest L R D) {x : ℕ} (hx : x ∈ R) : Attached L R D x :=
  ⟨F.red x hx, fun _ ht hb => (F.below_live ht.2.1 ht.1 hb).1 hx⟩

/-- The last step to a tree state comes from its only predecessor. -/
theorem Forest.below_pred (F : Forest L R D) {t x y : ℕ} (hx : x ∉ D) (e : Edge L x y) (hb : Below L R D t y) (hne : t ≠ y) :
    Below L R D t x := by
  rcases ReflTransGen.cases_tail hb with h | ⟨z, hz, ez⟩
  · exact absurd h.symm hne
  · obtain ⟨k, c, e⟩ := e
    have hy : y ∉ R := fun hr => ez.1 (F.up ez.2.1 ez.2.2 hr)
    obtain ⟨_, hL, k', c', e2⟩ := ez
    have := (F.uniq hx hL hy e e2).1
    rw [this]; exact hz

theorem Forest.attached_step (F : Forest L R D) {x y : ℕ} (hx : Attached L R D x) (e : Edge L x y) : Attached L R D y := by
  refine ⟨F.noDead e, fun t ht hb => ?_⟩
  by_cases hty : t = y
  · subst hty; exact ht.2.2 x hx.1 e
  · exact hx.2 t ht (F.below_pred hx.1 e hb hty)

theorem Forest.below_step (F : Forest L R D) {t x y : ℕ} (ht : Orphan L R D t) (hb : Below L R D t x) (e : Edge L x y) :
    Below L R D t y :=
  ReflTransGen.tail hb ⟨(F.below_live ht.2.1 ht.1 hb).1, (F.below_live ht.2.1 ht.1 hb).2, e⟩

theorem Forest.below_disjoint (F : Forest L R D) {t t' z : ℕ} (ht : Orphan L R D t) (ht' : Orphan L R D t') (hb : Below L R D t z)
    (hb' : Below L R D t' z) : t = t' := by
  induction hb with
  | refl =>
    by_contra hne
    rcases ReflTransGen.cases_tail hb' with h | ⟨w, _, ew⟩
    · exact hne h
    · exact ht.2.2 w ew.2.1 ew.2.2
  | @tail x y hx e ih =>
    refine ih (F.below_pred e.2.1 e.2.2 hb' ?_)
    rintro rfl
    exact ht'.2.2 x e.2.1 e.2.2

/-! ### One step of the merging -/

/-- What a part of the merging does to the graph: the states of `B` are merged or attached. -/
structure Step (R B : Set ℕ) (L : Graph) (D : Set ℕ) (L' : Graph) (D' : Set ℕ) : Prop where
  forest : Forest L' R D'
  mono : D ⊆ D'
  dead : D' ⊆ D ∪ B
  keep : ∀ {x k c y}, L x k = some (c, y) → y ∉ D' → L' x k = some (c, y)
  none : ∀ {x k}, L x k = none → L' x k = none ∨ Attached L R D x ∨ x ∈ B
  back : ∀ {x k c y}, x ∉ D' → L' x k = some (c, y) → L x k = some (c, y) ∨ y ∈ B
  att : ∀ {x}, Attached L R D x → Attached L' R D' x
  att' : ∀ {x}, Attached L' R D' x → Attached L R D x ∨ x ∈ B

theorem Step.trans {B : Set ℕ} (h : Step R B L D L' D') (h' : Step R B L' D' L'' D'') : Step R B L D L'' D'' where
  forest := h'.forest
  mono := h.mono.trans h'.mono
  dead := fun x hx => by
    rcases h'.dead hx with hx | hx
    · exact h.dead hx
    · exact Or.inr hx
  keep := fun e hy => h'.keep (h.keep e (fun hd => hy (h'.mono hd))) hy
  none := fun {x k} e => by
    rcases h.none e with e | e
    · rcases h'.none e with e | e | e
      · exact Or.inl e
      · exact Or.inr (h.att' e)
      · exact Or.inr (Or.inr e)
    · exact Or.inr e
  back := fun hx e => by
    rcases h'.back hx e with e | e
    · exact h.back (fun hd => hx (h'.mono hd)) e
    · exact Or.inr e
  att := fun hx => h'.att (h.att hx)
  att' := fun hx => by
    rcases h'.att' hx with hx | hx
    · exact h.att' hx
    · exact Or.inr hx

theorem Step.weaken {B B' : Set ℕ} (h : Step R B L D L' D') (hB : B ⊆ B') : Step R B' L D L' D' where
  forest := h.forest
  mono := h.mono
  dead := fun x hx => (h.dead hx).imp id (@hB x)
  keep := h.keep
  none := fun e => (h.none e).imp id (fun r => r.imp id (@hB _))
  back := fun hx e => (h.back hx e).imp id (@hB _)
  att := h.att
  att' := fun hx => (h.att' hx).imp id (@hB _)

theorem Step.refl {B : Set ℕ} (F : Forest L R D) : Step R B L D L D where
  forest := F
  mono := fun _ h => h
  dead := fun _ h => Or.inl h
  keep := fun e _ => e
  none := fun e => Or.inl e
  back := fun _ e => Or.inl e
  att := fun h => h
  att' := fun h => Or.inl h

/-- The trees of the other orphans are not touched. -/
theorem Step.frame (F : Forest L R D) {t2 t : ℕ} (h : Step R {z | Below L R D t2 z} L D L' D') (ht2 : Orphan L R D t2) (ht : Orphan L R D t)
    (hne : t ≠ t2) :
    Orphan L' R D' t ∧ (∀ z, Below L R D t z → z ∉ D' ∧ ∀ k, L' z k = L z k) ∧ ∀ z, Below L' R D' t z ↔ Below L R D t z := by
  have hdis : ∀ z, Below L R D t z → ¬ Below L R D t2 z := fun z hb hb2 => hne (F.below_disjoint ht ht2 hb hb2)
  have hlive : ∀ z, Below L R D t z → z ∉ D' := by
    intro z hb hd
    rcases h.dead hd with hd | hd
    · exact (F.below_live ht.2.1 ht.1 hb).2 hd
    · exact hdis z hb hd
  have hrow : ∀ z, Below L R D t z → ∀ k, L' z k = L z k := by
    intro z hb k
    rcases e : L z k with _ | ⟨c, y⟩
    · rcases h.none e with e' | e' | e'
      · exact e'
      · exact absurd hb (e'.2 t ht)
      · exact absurd e' (hdis z hb)
    · exact h.keep e (hlive y (F.below_step ht hb ⟨k, c, e⟩))
  have horph : Orphan L' R D' t := by
    refine ⟨hlive t .refl, ht.2.1, ?_⟩
    rintro x hx ⟨k, c, e⟩
    rcases h.back hx e with e | e
    · exact ht.2.2 x (fun hd => hx (h.mono hd)) ⟨k, c, e⟩
    · exact hdis t .refl e
  refine ⟨horph, fun z hb => ⟨hlive z hb, hrow z hb⟩, fun z => ⟨fun hb => ?_, fun hb => ?_⟩⟩
  · induction hb with
    | refl => exact .refl
    | tail _ e ih =>
      obtain ⟨k, c, e⟩ := e.2.2
      rw [hrow _ ih] at e
      exact F.below_step ht ih ⟨k, c, e⟩
  · induction hb with
    | refl => exact .refl
    | tail hb e ih =>
      obtain ⟨k, c, e'⟩ := e.2.2
      refine ReflTransGen.tail ih ⟨e.1, hlive _ hb, k, c, ?_⟩
      rw [hrow _ hb, e']

theorem run_cons (L : Graph) (x : ℕ) (k : Key) (w : List Key) (z : ℕ) :
    run L x (k :: w) = some z ↔ ∃ c y, L x k = some (c, y) ∧ run L y w = some z := by
  rw [run]
  rcases e : L x k with _ | ⟨c, y⟩
  · simp
  · constructor
    · intro h; exact ⟨c, y, rfl, h⟩
    · rintro ⟨c', y', e', h⟩
      cases e'; exact h

/-- Words read from an attached state are still read. -/
theorem Step.run {B : Set ℕ} (F : Forest L R D) (h : Step R B L D L' D') : ∀ (w : List Key) {x z : ℕ}, Attached L R D x → run L x w = some z →
    run L' x w = some z
  | [], _, _, _, e => e
  | k :: w, x, z, hx, e => by
    obtain ⟨c, y, e1, e2⟩ := (run_cons L x k w z).1 e
    have hy := F.attached_step hx ⟨k, c, e1⟩
    exact (run_cons L' x k w z).2 ⟨c, y, h.keep e1 (h.att hy).1, Step.run F h w hy e2⟩

/-- Words read in a set of states whose rows do not change. -/
theorem run_congr {P : ℕ → Prop} (hP : ∀ x k c y, P x → L x k = some (c, y) → P y) (hr : ∀ x, P x → ∀ k, L' x k = L x k) :
    ∀ (w : List Key) {x : ℕ}, P x → run L' x w = run L x w
  | [], _, _ => rfl
  | k :: w, x, hx => by
    rw [IOAlergia.run, IOAlergia.run, hr x hx]
    rcases e : L x k with _ | ⟨c, y⟩
    · rfl
    · exact run_congr hP hr w (hP x k c y hx e)

/-! ### The first step: the transitions to `s2` go to `s1` -/

/-- The transitions to `s2` go to `s1`. -/
def sub (s1 s2 : ℕ) (q : ℕ × ℕ) : ℕ × ℕ := if q.2 = s2 then (q.1, s1) else q

theorem sub_ne {s1 s2 : ℕ} (hne : s1 ≠ s2) (q : ℕ × ℕ) : (sub s1 s2 q).2 ≠ s2 := by
  unfold sub; split
  · exact hne
  · assumption

structure Kill (L : Graph) (R D : Set ℕ) (s1 s2 : ℕ) (L' : Graph) : Prop where
  att : Attached L R D s1
  below : ¬ Below L R D s2 s1
  live : s2 ∉ D
  nred : s2 ∉ R
  preds : ∀ x, x ∉ D → Edge L x s2 → x ∈ R ∧ s1 ∈ R
  look : ∀ x k, L' x k = (L x k).map (sub s1 s2)

section
variable {s1 s2 : ℕ}

theorem Kill.ne (h : Kill L R D s1 s2 L') : s1 ≠ s2 := by
  rintro rfl; exact h.below .refl

/-- A transition of the new graph: an old one, or one that went to `s2`. -/
theorem Kill.cases (h : Kill L R D s1 s2 L') {x k c y} (e : L' x k = some (c, y)) :
    (y ≠ s2 ∧ L x k = some (c, y)) ∨ (y = s1 ∧ L x k = some (c, s2)) := by
  rw [h.look] at e
  rcases e0 : L x k with _ | ⟨c0, y0⟩
  · rw [e0] at e; cases e
  · rw [e0] at e
    simp only [Option.map_some, Option.some.injEq, sub] at e
    by_cases hy : y0 = s2
    · rw [if_pos hy] at e
      cases e
      exact Or.inr ⟨rfl, by rw [hy]⟩
    · rw [if_neg hy] at e
      cases e
      exact Or.inl ⟨hy, rfl⟩

theorem Kill.keep (h : Kill L R D s1 s2 L') {x k c y} (e : L x k = some (c, y)) (hy : y ≠ s2) : L' x k = some (c, y) := by
  rw [h.look, e]
  simp [sub, hy]

theorem Kill.forest (F : Forest L R D) (h : Kill L R D s1 s2 L') : Forest L' R (insert s2 D) := by
  constructor
  · rintro x hx (rfl | hd)
    · exact h.nred hx
    · exact F.red x hx hd
  · rintro x y ⟨k, c, e⟩ (rfl | hd)
    · rcases h.cases e with ⟨hy, _⟩ | ⟨hy, _⟩
      · exact hy rfl
      · exact h.ne hy.symm
    · rcases h.cases e with ⟨_, e⟩ | ⟨rfl, _⟩
      · exact F.noDead ⟨k, c, e⟩ hd
      · exact h.att.1 hd
  · intro x x' k k' c c' y hx hx' hy e e'
    simp only [Set.mem_insert_iff, not_or] at hx hx'
    have key : ∀ {x k c}, x ∉ D → L' x k = some (c, y) → L x k = some (c, y) := by
      intro x k c hx e
      rcases h.cases e with ⟨_, e⟩ | ⟨rfl, e⟩
      · exact e
      · exact absurd (h.preds x hx ⟨k, c, e⟩).2 hy
    exact F.uniq hx.2 hx'.2 hy (key hx.2 e) (key hx'.2 e')
  · rintro x y hx ⟨k, c, e⟩ hy
    simp only [Set.mem_insert_iff, not_or] at hx
    rcases h.cases e with ⟨_, e⟩ | ⟨rfl, e⟩
    · exact F.up hx.2 ⟨k, c, e⟩ hy
    · exact (h.preds x hx.2 ⟨k, c, e⟩).1

theorem Kill.tree (h : Kill L R D s1 s2 L') {x y : ℕ} (e : Tree L' R (insert s2 D) x y) : Tree L R D x y := by
  obtain ⟨hR, hD, k, c, e⟩ := e
  simp only [Set.mem_insert_iff, not_or] at hD
  refine ⟨hR, hD.2, k, c, ?_⟩
  rcases h.cases e with ⟨_, e⟩ | ⟨rfl, e⟩
  · exact e
  · exact absurd (h.preds x hD.2 ⟨k, c, e⟩).1 hR

theorem Kill.below_sub (h : Kill L R D s1 s2 L') {t z : ℕ} (hb : Below L' R (insert s2 D) t z) : Below L R D t z :=
  rtg_mono (fun _ _ e => h.tree e) hb

/-- The successors of `s2` become orphans. -/
theorem Kill.kid (F : Forest L R D) (h : Kill L R D s1 s2 L') {k : Key} {c t : ℕ} (e : L s2 k = some (c, t)) :
    L' s2 k = some (c, t) ∧ Orphan L' R (insert s2 D) t ∧ Below L R D s2 t := by
  have hts : t ≠ s2 := by
    rintro rfl
    exact h.nred (h.preds _ h.live ⟨k, c, e⟩).1
  have hb : Below L R D s2 t := .single ⟨h.nred, h.live, k, c, e⟩
  have htR : t ∉ R := (F.below_live h.nred h.live hb).1
  refine ⟨h.keep e hts, ⟨?_, htR, ?_⟩, hb⟩
  · simp only [Set.mem_insert_iff, not_or]
    exact ⟨hts, F.noDead ⟨k, c, e⟩⟩
  · rintro x hx ⟨k', c', e'⟩
    simp only [Set.mem_insert_iff, not_or] at hx
    rcases h.cases e' with ⟨_, e'⟩ | ⟨rfl, e'⟩
    · exact hx.1 (F.uniq h.live hx.2 htR e e').1.symm
    · exact htR (h.preds x hx.2 ⟨k', c', e'⟩).2

/-- An orphan of the new graph: an old orphan or a successor of `s2`. -/
theorem Kill.orphan (h : Kill L R D s1 s2 L') {t : ℕ} (ht : Orphan L' R (insert s2 D) t) : Orphan L R D t ∨ Below L R D s2 t := by
  by_cases ho : Orphan L R D t
  · exact Or.inl ho
  · right
    have htD := ht.1
    simp only [Set.mem_insert_iff, not_or] at htD
    have : ∃ x, x ∉ D ∧ Edge L x t := by
      by_contra hn
      push Not at hn
      exact ho ⟨htD.2, ht.2.1, hn⟩
    obtain ⟨x, hx, k, c, e⟩ := this
    by_cases hxs : x = s2
    · subst hxs
      exact .single ⟨h.nred, h.live, k, c, e⟩
    · refine absurd ⟨k, c, h.keep e htD.1⟩ (ht.2.2 x ?_)
      simp only [Set.mem_insert_iff, not_or]
      exact ⟨hxs, hx⟩

theorem Kill.attached (h : Kill L R D s1 s2 L') {x : ℕ} (hx : Attached L R D x) (hb : ¬ Below L R D s2 x) : Attached L' R (insert s2 D) x := by
  refine ⟨?_, fun t ht hbt => ?_⟩
  · simp only [Set.mem_insert_iff, not_or]
    exact ⟨fun e => hb (e ▸ .refl), hx.1⟩
  · rcases h.orphan ht with ho | ho
    · exact hx.2 t ho (h.below_sub hbt)
    · exact hb (ho.trans (h.below_sub hbt))

/-- The step, when `s2` is an orphan. -/
theorem Kill.step (F : Forest L R D) (h : Kill L R D s1 s2 L') (ho : Orphan L R D s2) :
    Step R {z | Below L R D s2 z} L D L' (insert s2 D) where
  forest := h.forest F
  mono := fun x hx => Or.inr hx
  dead := by
    rintro x (rfl | hx)
    · exact Or.inr .refl
    · exact Or.inl hx
  keep := fun {x k c y} e hy => h.keep e (fun he => hy (Or.inl he))
  none := fun {x k} e => Or.inl (by rw [h.look, e]; rfl)
  back := fun {x k c y} hx e => by
    simp only [Set.mem_insert_iff, not_or] at hx
    rcases h.cases e with ⟨_, e⟩ | ⟨_, e⟩
    · exact Or.inl e
    · exact absurd ⟨k, c, e⟩ (ho.2.2 x hx.2)
  att := fun {x} hx => h.attached hx (hx.2 s2 ho)
  att' := fun {x} hx => by
    by_cases ha : Attached L R D x
    · exact Or.inl ha
    · right
      have hxD := hx.1
      simp only [Set.mem_insert_iff, not_or] at hxD
      have : ∃ t, Orphan L R D t ∧ Below L R D t x := by
        by_contra hn
        push Not at hn
        exact ha ⟨hxD.2, hn⟩
      obtain ⟨t, ht, hb⟩ := this
      by_cases hts : t = s2
      · subst hts; exact hb
      · exfalso
        have hdis : ∀ z, Below L R D t z → z ≠ s2 := fun z hz he => hts (F.below_disjoint ht ho hz (he ▸ .refl))
        have ht' : Orphan L' R (insert s2 D) t := by
          refine ⟨?_, ht.2.1, ?_⟩
          · simp only [Set.mem_insert_iff, not_or]; exact ⟨hts, ht.1⟩
          · rintro y hy ⟨k, c, e⟩
            simp only [Set.mem_insert_iff, not_or] at hy
            rcases h.cases e with ⟨_, e⟩ | ⟨_, e⟩
            · exact ht.2.2 y hy.2 ⟨k, c, e⟩
            · exact ho.2.2 y hy.2 ⟨k, c, e⟩
        refine hx.2 t ht' ?_
        clear hx hxD ha
        induction hb with
        | refl => exact .refl
        | tail hb e ih =>
          obtain ⟨hR, hD, k, c, e⟩ := e
          refine ReflTransGen.tail ih ⟨hR, ?_, k, c, h.keep e ?_⟩
          · simp only [Set.mem_insert_iff, not_or]; exact ⟨hdis _ hb, hD⟩
          · exact hdis _ (F.below_step ht hb ⟨k, c, e⟩)

end

/-! ### An orphan is attached -/

theorem attach_step (F : Forest L R D) {s1 t2 c : ℕ} {k : Key} (h1 : Attached L R D s1) (h2 : Orphan L R D t2) (hn : L s1 k = none)
    (hL : ∀ x k', L' x k' = if x = s1 ∧ k' = k then some (c, t2) else L x k') : Step R {z | Below L R D t2 z} L D L' D := by
  have keep : ∀ {x k' e}, L x k' = some e → L' x k' = some e := by
    intro x k' e he
    rw [hL, if_neg]
    · exact he
    · rintro ⟨rfl, rfl⟩
      rw [hn] at he; cases he
  have cases' : ∀ {x k' c' y}, L' x k' = some (c', y) → L x k' = some (c', y) ∨ (x = s1 ∧ k' = k ∧ y = t2) := by
    intro x k' c' y e
    rw [hL] at e
    split at e
    · rename_i hx
      cases e
      exact Or.inr ⟨hx.1, hx.2, rfl⟩
    · exact Or.inl e
  have F' : Forest L' R D := by
    constructor
    · exact F.red
    · rintro x y ⟨k', c', e⟩
      rcases cases' e with e | ⟨_, _, rfl⟩
      · exact F.noDead ⟨k', c', e⟩
      · exact h2.1
    · intro x x' k1 k2 c1 c2 y hx hx' hy e e'
      rcases cases' e with e | ⟨rfl, rfl, rfl⟩ <;> rcases cases' e' with e' | ⟨rfl, rfl, he⟩
      · exact F.uniq hx hx' hy e e'
      · subst he; exact absurd ⟨k1, c1, e⟩ (h2.2.2 x hx)
      · exact absurd ⟨k2, c2, e'⟩ (h2.2.2 x' hx')
      · exact ⟨rfl, rfl⟩
    · rintro x y hx ⟨k', c', e⟩ hy
      rcases cases' e with e | ⟨_, _, rfl⟩
      · exact F.up hx ⟨k', c', e⟩ hy
      · exact absurd hy h2.2.1
  have below' : ∀ {t z}, Orphan L R D t → Below L' R D t z → Below L R D t z := by
    intro t z ht hb
    induction hb with
    | refl => exact .refl
    | tail _ e ih =>
      obtain ⟨hR, hD, k', c', e⟩ := e
      rcases cases' e with e | ⟨rfl, _, _⟩
      · exact F.below_step ht ih ⟨k', c', e⟩
      · exact absurd ih (h1.2 t ht)
  have orph : ∀ {t}, Orphan L' R D t → Orphan L R D t := fun {t} ht =>
    ⟨ht.1, ht.2.1, fun x hx ⟨k', c', e⟩ => ht.2.2 x hx ⟨k', c', keep e⟩⟩
  refine ⟨F', fun _ h => h, fun _ h => Or.inl h, fun e _ => keep e, ?_, ?_, ?_, ?_⟩
  · intro x k' e
    by_cases hx : x = s1
    · exact Or.inr (Or.inl (hx ▸ h1))
    · left; rw [hL, if_neg (fun h => hx h.1)]; exact e
  · intro x k' c' y _ e
    rcases cases' e with e | ⟨_, _, rfl⟩
    · exact Or.inl e
    · exact Or.inr .refl
  · intro x hx
    exact ⟨hx.1, fun t ht hb => hx.2 t (orph ht) (below' (orph ht) hb)⟩
  · intro x hx
    by_cases ha : Attached L R D x
    · exact Or.inl ha
    · right
      have : ∃ t, Orphan L R D t ∧ Below L R D t x := by
        by_contra hn
        push Not at hn
        exact ha ⟨hx.1, hn⟩
      obtain ⟨t, ht, hb⟩ := this
      by_cases hts : t = t2
      · subst hts; exact hb
      · exfalso
        refine hx.2 t ⟨ht.1, ht.2.1, ?_⟩ (rtg_mono (fun x y e => ?_) hb)
        · rintro y hy ⟨k', c', e⟩
          rcases cases' e with e | ⟨_, _, rfl⟩
          · exact ht.2.2 y hy ⟨k', c', e⟩
          · exact hts rfl
        · obtain ⟨hR, hD, k', c', e⟩ := e
          exact ⟨hR, hD, k', c', keep e⟩

end

end Jajapy.IOAlergia
