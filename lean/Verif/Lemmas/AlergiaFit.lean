import Verif.Lemmas.AlergiaChain
import Verif.Lemmas.Paths

/-!
The labels of the nodes and of the kids, the alphabet, the merging of the prefix tree, and the chain read from the result.
-/

namespace Jajapy.Alergia

open Spec.Alergia Heap Create

variable {h : Heap}

/-! ### The labels of the kids -/

/-- The labels of the kids are in `L`, those of the kids of the root in `L0`. -/
def KidLabels (h : Heap) (L L0 : Set String) : Prop := ∀ x k, h.Kid x k → h.label k ∈ L ∧ (x = 0 → h.label k ∈ L0)

theorem KidLabels.foldKids {L L0 : Set String} {rec : Heap → ℕ → ℕ → Option Heap} (hlab : h.label 0 ∈ L → L0 = L)
    (hrec : ∀ h1 k1 k2 h2, (∀ x, h1.label x = h.label x) → KidLabels h1 L L0 → (k1 = 0 → L0 = L) → h1.label k2 ∈ L →
      rec h1 k1 k2 = some h2 → KidLabels h2 L L0 ∧ (∀ x, h2.label x = h.label x) ∧ (h.label 0 ∉ L → h2.count 0 = h1.count 0)) (s1 : ℕ) (hs : s1 = 0 → L0 = L) (l : List (ℕ × ℕ)) :
    ∀ h1 h', (∀ x, h1.label x = h.label x) → KidLabels h1 L L0 → (∀ q ∈ l, h1.label q.1 ∈ L) → foldKids rec s1 l h1 = some h' →
      KidLabels h' L L0 ∧ (∀ x, h'.label x = h.label x) ∧ (h.label 0 ∉ L → h'.count 0 = h1.count 0) := by
  induction l with
  | nil => intro h1 h' e I _ hf; injection hf with hf; subst hf; exact ⟨I, e, fun _ => rfl⟩
  | cons q l ih =>
    obtain ⟨k2, c⟩ := q
    intro h1 h' e I hl hf
    unfold Alergia.foldKids at hf
    have hk2 := hl (k2, c) (by simp)
    dsimp only at hk2
    cases hk : h1.findKid s1 (h1.label k2) with
    | none =>
      rw [hk] at hf
      have e' : ∀ x, (moved h1 s1 k2 c).label x = h.label x := fun x => by rw [moved_label, e]
      have I' : KidLabels (moved h1 s1 k2 c) L L0 := by
        intro x k hxk
        rw [moved_label]
        rcases (moved_kid x k).1 hxk with hxk | ⟨rfl, rfl⟩
        · exact I x k hxk
        · exact ⟨hk2, fun e0 => by rw [hs e0]; exact hk2⟩
      obtain ⟨a1, a2, a3⟩ := ih (moved h1 s1 k2 c) h' e' I' (fun q hq => by rw [moved_label]; exact hl q (by simp [hq])) hf
      exact ⟨a1, a2, fun h0 => by rw [a3 h0, moved_count]⟩
    | some k1 =>
      rw [hk] at hf
      dsimp only at hf
      have hkk := findKid_some hk
      cases hr : rec ((h1.setCount k1 (h1.count k1 + h1.count k2)).incNode s1 k1 c) k1 k2 with
      | none => rw [hr] at hf; cases hf
      | some h2 =>
        rw [hr] at hf
        have e' : ∀ x, (pooled h1 s1 k1 k2 c).label x = h.label x := fun x => by rw [pooled_label, e]
        have I' : KidLabels (pooled h1 s1 k1 k2 c) L L0 := by
          intro x k hxk
          rw [pooled_label]
          exact I x k ((pooled_kid x k).1 hxk)
        have hk1 : k1 = 0 → L0 = L := by
          rintro rfl
          apply hlab
          rw [← e]
          exact (I s1 0 hkk.1).1
        obtain ⟨I2, e2, c2⟩ := hrec (pooled h1 s1 k1 k2 c) k1 k2 h2 e' I' hk1 (by rw [pooled_label]; exact hk2) hr
        obtain ⟨a1, a2, a3⟩ := ih h2 h' e2 I2 (fun q hq => by rw [e2, ← e]; exact hl q (by simp [hq])) hf
        refine ⟨a1, a2, fun h0 => ?_⟩
        rw [a3 h0, c2 h0, pooled_count, if_neg, add_zero]
        rintro rfl
        exact h0 (by rw [← e]; exact (I s1 0 hkk.1).1)

theorem KidLabels.fold {L L0 : Set String} (hlab : h.label 0 ∈ L → L0 = L) (f : ℕ) :
    ∀ h1 s1 s2 h', (∀ x, h1.label x = h.label x) → KidLabels h1 L L0 → (s1 = 0 → L0 = L) → fold f h1 s1 s2 = some h' →
      KidLabels h' L L0 ∧ (∀ x, h'.label x = h.label x) ∧ (h.label 0 ∉ L → h'.count 0 = h1.count 0) := by
  induction f with
  | zero => intro _ _ _ _ _ _ _ hf; cases hf
  | succ f ih =>
    intro h1 s1 s2 h' e I hs hf
    unfold Alergia.fold at hf
    exact KidLabels.foldKids hlab (fun h1 k1 k2 h2 e I hk _ hr => ih h1 k1 k2 h2 e I hk hr) s1 hs (h1.kids s2) h1 h' e I
      (fun q hq => (I s2 q.1 (kid_of_mem hq)).1) hf

theorem replaceFirst_mem {a b : ℕ} {l : List (ℕ × ℕ)} {k : ℕ} (hk : k ∈ (replaceFirst a b l).map (·.1)) :
    k ∈ l.map (·.1) ∨ (k = b ∧ a ∈ l.map (·.1)) := by
  induction l with
  | nil => cases hk
  | cons q l ih =>
    unfold replaceFirst at hk
    split_ifs at hk with hq
    · rcases List.mem_cons.1 hk with e | hk
      · exact .inr ⟨e, by simp [hq]⟩
      · exact .inl (by rw [List.map_cons]; exact List.mem_cons.2 (.inr hk))
    · rcases List.mem_cons.1 hk with e | hk
      · exact .inl (by rw [List.map_cons]; exact List.mem_cons.2 (.inl e))
      · rcases ih hk with h | ⟨h1, h2⟩
        · exact .inl (by rw [List.map_cons]; exact List.mem_cons.2 (.inr h))
        · exact .inr ⟨h1, by rw [List.map_cons]; exact List.mem_cons.2 (.inr h2)⟩

theorem KidLabels.merge {L L0 : Set String} (hlab : h.label 0 ∈ L → L0 = L) (I : KidLabels h L L0) {f r b : ℕ} {h' : Heap}
    (hl : h.label r = h.label b) (hb : h.label b ∈ L) (hm : merge f h r b = some h') :
    KidLabels h' L L0 ∧ (∀ x, h'.label x = h.label x) ∧ (h.label 0 ∉ L → h'.count 0 = h.count 0) := by
  unfold Alergia.merge at hm
  dsimp only at hm
  have hr : r = 0 → L0 = L := by rintro rfl; apply hlab; rw [hl]; exact hb
  cases hp : (h.setCount r (h.count r + h.count b)).parent b with
  | none =>
    rw [hp] at hm
    have I' : KidLabels (h.setCount r (h.count r + h.count b)) L L0 := by
      intro x k hk
      have : h.Kid x k := by unfold Kid at hk ⊢; simpa using hk
      simpa using I x k this
    obtain ⟨a1, a2, a3⟩ := KidLabels.fold hlab f _ r b h' (fun x => by simp) I' hr hm
    refine ⟨a1, a2, fun h0 => ?_⟩
    rw [a3 h0, setCount_count, if_neg]
    rintro rfl
    exact h0 (hl ▸ hb)
  | some p =>
    rw [hp] at hm
    have I' : KidLabels (joined h r b p) L L0 := by
      intro x k hk
      rw [joined_label]
      unfold Kid at hk
      rw [joined_kids] at hk
      split_ifs at hk with hx
      · rcases replaceFirst_mem hk with hk' | ⟨rfl, hk'⟩
        · exact hx ▸ I p k hk'
        · rw [hl, hx]; exact I p b hk'
      · exact I x k hk
    obtain ⟨a1, a2, a3⟩ := KidLabels.fold hlab f (joined h r b p) r b h' (fun x => joined_label x) I' hr hm
    refine ⟨a1, a2, fun h0 => ?_⟩
    rw [a3 h0, joined_count, if_neg, add_zero]
    rintro rfl
    exact h0 (hl ▸ hb)

theorem KidLabels.loop {L L0 : Set String} {compat : Heap → ℕ → ℕ → Py Bool}
    (hcompat : ∀ h s1 s2, compat h s1 s2 = .ok true → h.label s1 = h.label s2) {depth : ℕ} (f : ℕ) :
    ∀ (h : Heap) (red blue : List ℕ) (h' : Heap) (red' : List ℕ), (h.label 0 ∈ L → L0 = L) → KidLabels h L L0 →
      (∀ b ∈ blue, ∃ x, h.Kid x b) → loop compat depth f h red blue = .ok (some (h', red')) →
      KidLabels h' L L0 ∧ (h.label 0 ∉ L → h'.count 0 = h.count 0) := by
  induction f with
  | zero => intro _ _ _ _ _ _ _ _ hl; cases hl
  | succ f ih =>
    intro h red blue h' red' hlab I hb hl
    cases blue with
    | nil => injection hl with hl; injection hl with hl; injection hl with hl _; subst hl; exact ⟨I, fun _ => rfl⟩
    | cons b bs =>
      unfold Alergia.loop at hl
      have hbl : ∀ (h1 : Heap) (red1 : List ℕ), ∀ x ∈ blues h1 red1, ∃ s, h1.Kid s x := by
        intro h1 red1 x hx
        obtain ⟨_, s, _, hk⟩ := (mem_blues h1 red1 x).1 hx
        exact ⟨s, hk⟩
      cases hm : mergeFirst compat h b red with
      | error e => rw [hm] at hl; cases hl
      | ok v =>
        rw [hm] at hl
        simp only [bind, Except.bind] at hl
        cases v with
        | none => exact ih h _ _ h' red' hlab I (hbl _ _) hl
        | some s2 =>
          dsimp only at hl
          obtain ⟨_, hc⟩ := mergeFirst_some hm
          obtain ⟨xb, hxb⟩ := hb b (by simp)
          cases hg : Alergia.merge depth h s2 b with
          | none => rw [hg] at hl; cases hl
          | some h1 =>
            rw [hg] at hl
            obtain ⟨I1, e1, c1⟩ := I.merge hlab (hcompat h b s2 hc).symm (I xb b hxb).1 hg
            obtain ⟨I2, c2⟩ := ih h1 _ _ h' red' (by rw [e1]; exact hlab) I1 (hbl _ _) hl
            exact ⟨I2, fun h0 => by rw [c2 (by rw [e1]; exact h0), c1 h0]⟩

/-! ### The alphabet and the label of the root -/

theorem addKids_label (s : List String) : ∀ (h : Heap) (n c x : ℕ), x < h.size → (addKids h n c s).1.label x = h.label x ∧
    h.size ≤ (addKids h n c s).1.size := by
  induction s with
  | nil => intro h n c x _; exact ⟨rfl, le_rfl⟩
  | cons l s ih =>
    intro h n c x hx
    unfold addKids
    dsimp only
    obtain ⟨e1, e2⟩ := ih ((h.alloc ⟨l, 0, [], some n⟩).addKid n h.size c)
      ((((h.alloc ⟨l, 0, [], some n⟩).addKid n h.size c).kids n).getLast?.map (·.1) |>.getD 0) c x
      (by rw [addKid_size]; show x < h.size + 1; omega)
    refine ⟨e1.trans ?_, le_trans ?_ e2⟩
    · rw [addKid_label]
      unfold Heap.label
      rw [alloc_node _ (by omega)]
    · rw [addKid_size]; show h.size ≤ h.size + 1; omega

theorem insertTrace_label (s : List String) : ∀ (p : PTA) (n c x : ℕ), x < p.heap.size →
    (insertTrace p n c s).heap.label x = p.heap.label x ∧ p.heap.size ≤ (insertTrace p n c s).heap.size := by
  induction s with
  | nil => intro p n c x _; unfold insertTrace; exact ⟨by simp, le_rfl⟩
  | cons l s ih =>
    intro p n c x hx
    unfold insertTrace
    dsimp only
    have e1 : ∀ x, (p.heap.incKid n l c).1.label x = p.heap.label x := fun x => by unfold incKid; simp
    cases hf : (p.heap.incKid n l c).2 with
    | none =>
      dsimp only
      obtain ⟨a, b⟩ := addKids_label (l :: s) (p.heap.incKid n l c).1 n c x hx
      exact ⟨by rw [setCount_label, a, e1], b⟩
    | some k =>
      obtain ⟨a, b⟩ := ih ⟨(p.heap.incKid n l c).1, if l ∈ p.alphabet then p.alphabet else p.alphabet ++ [l]⟩ k c x hx
      exact ⟨a.trans (e1 x), b⟩

theorem foldl_label (ts : List (List String × ℕ)) : ∀ p : PTA, 0 < p.heap.size →
    (ts.foldl (fun p q => insertTrace p 0 q.2 q.1) p).heap.label 0 = p.heap.label 0 := by
  induction ts with
  | nil => intro p _; rfl
  | cons t ts ih =>
    intro p hp
    obtain ⟨a, b⟩ := insertTrace_label t.1 p 0 t.2 0 hp
    rw [List.foldl_cons, ih _ (lt_of_lt_of_le hp b), a]

theorem createPTA_root (S : TSet String) : (createPTA S).heap.label 0 = "" := foldl_label _ emptyPTA (by unfold emptyPTA; simp)

theorem insertTrace_alphabet (s : List String) : ∀ (p : PTA) (n c : ℕ), (∀ a ∈ p.alphabet, a ∈ (insertTrace p n c s).alphabet) ∧
    (∀ a, s.head? = some a → a ∈ (insertTrace p n c s).alphabet) ∧ ∀ a ∈ (insertTrace p n c s).alphabet, a ∈ p.alphabet ∨ a ∈ s := by
  induction s with
  | nil => intro p n c; exact ⟨fun a h => h, by simp, fun a h => .inl h⟩
  | cons l s ih =>
    intro p n c
    unfold insertTrace
    dsimp only
    have h1 : ∀ a ∈ p.alphabet, a ∈ (if l ∈ p.alphabet then p.alphabet else p.alphabet ++ [l]) := by
      intro a ha; split_ifs
      · exact ha
      · simp [ha]
    have h2 : l ∈ (if l ∈ p.alphabet then p.alphabet else p.alphabet ++ [l]) := by split_ifs with hl <;> simp [hl]
    have h3 : ∀ a ∈ (if l ∈ p.alphabet then p.alphabet else p.alphabet ++ [l]), a ∈ p.alphabet ∨ a = l := by
      intro a ha; split_ifs at ha
      · exact .inl ha
      · simpa using ha
    cases hf : (p.heap.incKid n l c).2 with
    | none =>
      refine ⟨h1, ?_, ?_⟩
      · intro a ha; injection ha with ha; subst ha; exact h2
      · intro a ha; rcases h3 a ha with h | rfl
        · exact .inl h
        · exact .inr (by simp)
    | some k =>
      obtain ⟨a1, _, a3⟩ := ih ⟨(p.heap.incKid n l c).1, if l ∈ p.alphabet then p.alphabet else p.alphabet ++ [l]⟩ k c
      refine ⟨fun a ha => a1 a (h1 a ha), ?_, ?_⟩
      · intro a ha; injection ha with ha; subst ha; exact a1 _ h2
      · intro a ha; rcases a3 a ha with h | h
        · rcases h3 a h with h | rfl
          · exact .inl h
          · exact .inr (by simp)
        · exact .inr (by simp [h])

theorem foldl_alphabet (ts : List (List String × ℕ)) : ∀ p : PTA,
    (∀ a ∈ p.alphabet, a ∈ (ts.foldl (fun p q => insertTrace p 0 q.2 q.1) p).alphabet) ∧
    (∀ t ∈ ts, ∀ a, t.1.head? = some a → a ∈ (ts.foldl (fun p q => insertTrace p 0 q.2 q.1) p).alphabet) ∧
    ∀ a ∈ (ts.foldl (fun p q => insertTrace p 0 q.2 q.1) p).alphabet, a ∈ p.alphabet ∨ ∃ t ∈ ts, a ∈ t.1 := by
  induction ts with
  | nil => intro p; exact ⟨fun _ h => h, by simp, fun _ h => .inl h⟩
  | cons t ts ih =>
    intro p
    rw [List.foldl_cons]
    obtain ⟨a1, a2, a3⟩ := ih (insertTrace p 0 t.2 t.1)
    obtain ⟨b1, b2, b3⟩ := insertTrace_alphabet t.1 p 0 t.2
    refine ⟨fun a ha => a1 a (b1 a ha), ?_, ?_⟩
    · intro t' ht' a ha
      rcases List.mem_cons.1 ht' with rfl | ht'
      · exact a1 a (b2 a ha)
      · exact a2 t' ht' a ha
    · intro a ha
      rcases a3 a ha with h | ⟨t', ht', h⟩
      · rcases b3 a h with h | h
        · exact .inl h
        · exact .inr ⟨t, by simp, h⟩
      · exact .inr ⟨t', by simp [ht'], h⟩

theorem createPTA_alphabet (S : TSet String) (hS : S.WF) :
    (∀ t ∈ S.sequences, ∀ a, t.head? = some a → a ∈ (createPTA S).alphabet) ∧
    ∀ a ∈ (createPTA S).alphabet, ∃ t ∈ S.sequences, a ∈ t := by
  obtain ⟨_, a2, a3⟩ := foldl_alphabet ((sortSet S).sort.sequences.zip (sortSet S).sort.times) emptyPTA
  have hp := (TSet.sort_spec (sortSet S)).1.trans (sortSet_perm S hS)
  refine ⟨?_, ?_⟩
  · intro t ht a ha
    rw [← perm_map_fst S hS.1] at ht
    obtain ⟨q, hq, rfl⟩ := List.mem_map.1 ht
    exact a2 q (hp.mem_iff.2 hq) a ha
  · intro a ha
    rcases a3 a ha with h | ⟨t, ht, h⟩
    · cases h
    · exact ⟨t.1, by rw [← perm_map_fst S hS.1]; exact List.mem_map.2 ⟨t, hp.mem_iff.1 ht, rfl⟩, h⟩

/-! ### The merging of the prefix tree -/

theorem TreeOf.labels {word : ℕ → List String} {ts : List (List String × ℕ)} (T : TreeOf h word ts) {x k : ℕ} (hk : h.Kid x k) :
    (∃ t ∈ ts, h.label k ∈ t.1) ∧ (x = 0 → ∃ t ∈ ts, t.1.head? = some (h.label k)) := by
  have hx : x < h.size := by
    by_contra hx
    unfold Kid at hk
    rw [T.unused x (by omega)] at hk
    cases hk
  obtain ⟨c, hc⟩ := kid_iff.1 hk
  obtain ⟨a, _, b, _⟩ := T.kid x hx (k, c) hc
  dsimp only at b a
  rcases (T.words (word k)).2 ⟨k, a, rfl⟩ with e | ⟨t, ht, hp⟩
  · rw [b] at e; simp at e
  · rw [b] at hp
    obtain ⟨v, hv⟩ := hp
    refine ⟨⟨t, ht, by rw [← hv]; simp⟩, ?_⟩
    rintro rfl
    refine ⟨t, ht, ?_⟩
    rw [T.w0] at hv
    rw [← hv]; rfl

/-- The result of the merging, for every test that accepts only nodes with the same label. -/
theorem mergeStates_merged {word : ℕ → List String} {ts : List (List String × ℕ)} (T : TreeOf h word ts) {lo : ℕ} (hlo : ∀ t ∈ ts, lo ≤ t.2)
    {compat : Heap → ℕ → ℕ → Py Bool} (hcompat : ∀ h s1 s2, compat h s1 s2 = .ok true → h.label s1 = h.label s2) :
    (∃ e h1 s1 s2 R1 A1, mergeStates compat h = .error e ∧ compat h1 s1 s2 = .error e ∧ WF h1 R1 A1 lo ∧ s1 ∈ A1 ∧ s1 ∉ R1 ∧
        A1 ⊆ Finset.range h.size ∧ h1.size = h.size) ∨
      ∃ h' A' red', mergeStates compat h = .ok (some (h', red')) ∧ (∀ x, x ∈ red' ↔ x ∈ A') ∧
        Merged h h' (Finset.range h.size) A' lo (ts.map (·.2)).sum := by
  unfold mergeStates
  have W := T.wf hlo
  refine loop_spec hcompat (h.size + 1) h {0} (Finset.range h.size) [0] W T.flow ?_ (by simp) ?_ (by simp) _ ?_ ?_
  · intro x hx; rw [Finset.mem_singleton] at hx; subst hx; exact .root
  · have := Finset.card_le_card (Finset.sdiff_subset (s := Finset.range h.size) (t := {0}))
    rw [Finset.card_range] at this
    omega
  · intro e
    have e' : blues h [0] = [] := by
      by_contra hne
      obtain ⟨x, hx⟩ := List.exists_mem_of_ne_nil _ hne
      obtain ⟨_, s, hs, hk⟩ := (mem_blues h [0] x).1 hx
      rw [List.mem_singleton] at hs
      subst hs
      unfold Kid at hk
      rw [e] at hk
      cases hk
    exact blues_nil W (by simp) e'
  · intro x hx
    refine ⟨?_, 0, by simp, hx⟩
    rw [Finset.mem_singleton]
    obtain ⟨c, hc⟩ := kid_iff.1 hx
    exact (T.kid 0 T.pos (x, c) hc).2.1

/-- The labels of the kids after the merging. -/
theorem mergeStates_labels {word : ℕ → List String} {ts : List (List String × ℕ)} (T : TreeOf h word ts) (h0 : h.label 0 = "")
    {compat : Heap → ℕ → ℕ → Py Bool} (hcompat : ∀ h s1 s2, compat h s1 s2 = .ok true → h.label s1 = h.label s2) {h' : Heap} {red' : List ℕ}
    (hm : mergeStates compat h = .ok (some (h', red'))) :
    (∀ x k, h'.Kid x k → ∃ t ∈ ts, h'.label k ∈ t.1) ∧
    ((∀ t ∈ ts, "" ∉ t.1) → (∀ k, h'.Kid 0 k → ∃ t ∈ ts, t.1.head? = some (h'.label k)) ∧ h'.count 0 = h.count 0) := by
  have hb : ∀ b ∈ (h.kids 0).map (·.1), ∃ x, h.Kid x b := fun b hb => ⟨0, hb⟩
  refine ⟨?_, ?_⟩
  · have := KidLabels.loop (L := {l | ∃ t ∈ ts, l ∈ t.1}) (L0 := {l | ∃ t ∈ ts, l ∈ t.1}) hcompat _ h _ _ h' red' (fun _ => rfl)
      (fun x k hk => ⟨(T.labels hk).1, fun _ => (T.labels hk).1⟩) hb hm
    exact fun x k hk => (this.1 x k hk).1
  · intro hne
    have := KidLabels.loop (L := {l | ∃ t ∈ ts, l ∈ t.1}) (L0 := {l | ∃ t ∈ ts, t.1.head? = some l}) hcompat _ h _ _ h' red'
      (by rintro ⟨t, ht, hm⟩; rw [h0] at hm; exact absurd hm (hne t ht))
      (fun x k hk => ⟨(T.labels hk).1, (T.labels hk).2⟩) hb hm
    refine ⟨fun k hk => (this.1 0 k hk).2 rfl, this.2 ?_⟩
    rintro ⟨t, ht, hm⟩
    rw [h0] at hm
    exact hne t ht hm

/-! ### The chain -/

theorem sum_states {α : Type} [AddCommMonoid α] (states : List ℕ) (hs : states.Nodup) (f : ℕ → α) :
    ∑ i : Fin states.length, f (states.get i) = ∑ x ∈ states.toFinset, f x := by
  rw [List.sum_toFinset _ hs, ← List.sum_ofFn]
  congr 1
  apply List.ext_getElem
  · simp
  · intro i h1 h2; simp

variable {K : Type} [Field K] [LinearOrder K] [IsStrictOrderedRing K] [FloorRing K]

/-- The chain read from a graph: its states are the nodes reached from the root, and the transition matrix has the relative frequencies. -/
theorem toMC_spec {p : PTA} {h : Heap} {r : ℕ} (hroot : mcRoot p = .ok (h, r)) (hr : h.label r = "init") {B : Finset ℕ} (hrB : r ∈ B)
    (hcl : ∀ x ∈ B, ∀ k, h.Kid x k → k ∈ B) (hn : ∀ x ∈ B, ((h.kids x).map (·.1)).Nodup) (hB : B.card ≤ h.size) :
    ∃ (states : List ℕ) (M : MC K String states.length), toMC K p = .ok (some ⟨states, M⟩) ∧ states.Nodup ∧ states.head? = some r ∧
      (∀ x, x ∈ states ↔ Below h r x) ∧ (∀ x ∈ states, x ∈ B) ∧ (∀ x ∈ states, ∀ k, h.Kid x k → k ∈ states) ∧
      (∀ i j, M.matrix i j = (edge h (states.get i) (states.get j) : K) / (leaving h (states.get i) : K)) ∧
      FromLabels (states.map h.label) M.labelling M.initialState := by
  have hB1 : 1 ≤ B.card := Finset.card_pos.2 ⟨r, hrB⟩
  obtain ⟨states, e1, e2, e3, e4, e5, e6⟩ := bfs_spec hcl r (h.size + 1) [r] [r] (by simp) (by simpa using hrB) (by simp) rfl
    (by intro x hx; rw [List.mem_singleton] at hx; subst hx; exact .refl) (by simp) (by simp; omega)
  have hmat : ∀ i j, mcMatrix K h states i j = (edge h (states.get i) (states.get j) : K) / (leaving h (states.get i) : K) := by
    intro i j
    exact mcMatrix_eq states e2 i j (hn _ (e4 _ (List.get_mem _ _))) (e6 _ (List.get_mem _ _))
  have hrow : ∀ i, RowOK (mcMatrix K h states i) := by
    intro i
    have hsum : ∑ j, mcMatrix K h states i j = (leaving h (states.get i) : K) / (leaving h (states.get i) : K) := by
      simp only [hmat]
      rw [← Finset.sum_div, ← Nat.cast_sum, sum_states states e2 (fun x => edge h (states.get i) x), sum_edge]
      intro k hk
      exact List.mem_toFinset.2 (e6 _ (List.get_mem _ _) k hk)
    by_cases hz : leaving h (states.get i) = 0
    · right; rw [hsum, hz]; norm_num
    · left; rw [hsum, div_self (by exact_mod_cast hz)]; norm_num
  have hmem : r ∈ states := List.mem_of_mem_head? e3
  have hinit : "init" ∈ states.map h.label := List.mem_map.2 ⟨r, hmem, hr⟩
  obtain ⟨M, hM⟩ := mkMC_total (mcMatrix K h states) (states.map h.label) hinit (by simp) hrow
  refine ⟨states, M, ?_, e2, e3, ?_, e4, e6, ?_, ((mkMC_ok_iff _ _ _).1 hM).2.2.2.2⟩
  · unfold toMC
    rw [hroot]
    simp only [bind, Except.bind]
    rw [e1]
    dsimp only
    rw [hM]
    rfl
  · intro x
    refine ⟨e5 x, fun hb => ?_⟩
    have := Below.mem (h := h) (U := states.toFinset) (fun x hx k hk => List.mem_toFinset.2 (e6 x (List.mem_toFinset.1 hx) k hk))
      (List.mem_toFinset.2 hmem) hb
    exact List.mem_toFinset.1 this
  · intro i j
    rw [((mkMC_ok_iff _ _ _).1 hM).2.2.2.1]
    exact hmat i j

end Jajapy.Alergia
