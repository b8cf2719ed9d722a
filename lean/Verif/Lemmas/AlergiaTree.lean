import Verif.Lemmas.AlergiaMerge
import Verif.Props.TSet
import Mathlib.Data.List.Infix

/-!
The construction of the prefix tree: the invariant of the loop over the traces.
-/

namespace Jajapy.Alergia

open Spec.Alergia Heap

/-! ### Lists -/

theorem incFirst_map (t : ℕ → Bool) (c : ℕ) (l : List (ℕ × ℕ)) (hp : l.Pairwise (fun a b => ¬ (t a.1 = true ∧ t b.1 = true))) :
    incFirst t c l = l.map (fun q => if t q.1 then (q.1, q.2 + c) else q) := by
  induction l with
  | nil => rfl
  | cons q l ih =>
    rw [List.pairwise_cons] at hp
    unfold incFirst
    by_cases hq : t q.1 = true
    · rw [if_pos hq, List.map_cons, if_pos hq]
      congr 1
      have : l.map (fun q => if t q.1 then (q.1, q.2 + c) else q) = l.map id := by
        apply List.map_congr_left
        intro q' hq'
        have := hp.1 q' hq'
        rw [if_neg (fun e => this ⟨hq, e⟩)]; rfl
      rw [this, List.map_id]
    · rw [if_neg hq, List.map_cons, if_neg hq, ih hp.2]

/-- A kid with a bigger label than all the others is added at the end. -/
theorem addKid_last {h : Heap} {x k c : ℕ} (hs : ((h.kids x).map (fun q => h.label q.1)).Pairwise (· < ·))
    (hl : ∀ q ∈ h.kids x, h.label q.1 < h.label k) : (h.addKid x k c).kids x = h.kids x ++ [(k, c)] := by
  unfold addKid
  dsimp only
  rw [setKids_kids, if_pos rfl]
  have hsort : ((h.kids x).map (fun q => h.label q.1) ++ [h.label k]).insertionSort (· ≤ ·) =
      (h.kids x).map (fun q => h.label q.1) ++ [h.label k] := by
    apply List.Pairwise.insertionSort_eq
    rw [List.pairwise_append]
    refine ⟨hs.imp le_of_lt, List.pairwise_singleton _ _, ?_⟩
    intro a ha b hb
    rw [List.mem_singleton] at hb
    subst hb
    obtain ⟨q, hq, rfl⟩ := List.mem_map.1 ha
    exact le_of_lt (hl q hq)
  rw [hsort, List.idxOf_append_of_notMem]
  · simp
  · intro hm
    obtain ⟨q, hq, e⟩ := List.mem_map.1 hm
    exact absurd (hl q hq) (by rw [e]; exact lt_irrefl _)

/-! ### The tree -/

/-- The tree whose words are those of `Pw`, with `pc w` traces on the transition to the node of `w` and `tc w` traces that end
there. -/
structure Tree (h : Heap) (word : ℕ → List String) (Pw : List String → Prop) (pc tc : List String → ℕ) : Prop where
  pos : 0 < h.size
  w0 : word 0 = []
  kid : ∀ x < h.size, ∀ q ∈ h.kids x, q.1 < h.size ∧ q.1 ≠ 0 ∧ word q.1 = word x ++ [h.label q.1] ∧ h.parent q.1 = some x ∧
    q.2 = pc (word q.1)
  isKid : ∀ k < h.size, k ≠ 0 → ∃ x < h.size, h.Kid x k
  sorted : ∀ x < h.size, ((h.kids x).map (fun q => h.label q.1)).Pairwise (· < ·)
  cnt : ∀ x < h.size, h.count x = tc (word x)
  words : ∀ w, Pw w ↔ ∃ x < h.size, word x = w
  inj : ∀ x < h.size, ∀ y < h.size, word x = word y → x = y
  unused : ∀ x, h.size ≤ x → h.kids x = []
  pc0 : ∀ w, ¬ Pw w → pc w = 0

variable {h : Heap} {word : ℕ → List String} {Pw : List String → Prop} {pc tc : List String → ℕ}

theorem Tree.det (T : Tree h word Pw pc tc) (x : ℕ) (hx : x < h.size) : h.Det x := (T.sorted x hx).imp ne_of_lt

/-- A node whose word is longer by one letter is the kid with this label. -/
theorem Tree.kid_of_word (T : Tree h word Pw pc tc) {x y : ℕ} {l : String} (hx : x < h.size) (hy : y < h.size) (hw : word y = word x ++ [l]) :
    h.Kid x y ∧ h.label y = l := by
  have hy0 : y ≠ 0 := by rintro rfl; rw [T.w0] at hw; simp at hw
  obtain ⟨z, hz, hk⟩ := T.isKid y hy hy0
  obtain ⟨c, hc⟩ := kid_iff.1 hk
  obtain ⟨_, _, hwy, _, _⟩ := T.kid z hz (y, c) hc
  dsimp only at hwy
  rw [hwy] at hw
  obtain ⟨e1, e2⟩ := List.append_inj' hw rfl
  have := T.inj z hz x hx e1
  subst this
  exact ⟨hk, by simpa using e2⟩

theorem Tree.findKid (T : Tree h word Pw pc tc) {x k : ℕ} {l : String} (hx : x < h.size) :
    h.findKid x l = some k ↔ k < h.size ∧ word k = word x ++ [l] := by
  constructor
  · intro hf
    obtain ⟨hk, hl⟩ := findKid_some hf
    obtain ⟨c, hc⟩ := kid_iff.1 hk
    obtain ⟨a, _, b, _, _⟩ := T.kid x hx (k, c) hc
    exact ⟨a, by rw [← hl]; exact b⟩
  · rintro ⟨hk, hw⟩
    obtain ⟨a, b⟩ := T.kid_of_word hx hk hw
    rw [← b]
    exact (T.det x hx).findKid a

theorem Tree.follow (T : Tree h word Pw pc tc) (w : List String) {x y : ℕ} (hx : x < h.size) :
    follow h x w = some y ↔ y < h.size ∧ word y = word x ++ w := by
  induction w generalizing x with
  | nil =>
    simp only [Spec.Alergia.follow, Option.some.injEq, List.append_nil]
    constructor
    · rintro rfl; exact ⟨hx, rfl⟩
    · rintro ⟨hy, e⟩; exact (T.inj y hy x hx e).symm
  | cons l w ih =>
    simp only [Spec.Alergia.follow]
    cases hf : h.findKid x l with
    | none =>
      constructor
      · intro e; cases e
      · rintro ⟨hy, e⟩
        -- a prefix of the word of a node is the word of a node
        have pre : ∀ n, ∀ z < h.size, ∀ u v, word z = u ++ v → v.length = n → ∃ z' < h.size, word z' = u := by
          intro n
          induction n with
          | zero => intro z hz u v e hv; exact ⟨z, hz, by rw [e, List.length_eq_zero_iff.1 hv, List.append_nil]⟩
          | succ n ihn =>
            intro z hz u v e hv
            have hz0 : z ≠ 0 := by
              rintro rfl
              rw [T.w0] at e
              have := congrArg List.length e
              simp at this
              omega
            obtain ⟨p, hp, hk⟩ := T.isKid z hz hz0
            obtain ⟨c, hc⟩ := kid_iff.1 hk
            obtain ⟨_, _, hwz, _, _⟩ := T.kid p hp (z, c) hc
            dsimp only at hwz
            have hv' : v ≠ [] := by rintro rfl; simp at hv
            rw [← List.dropLast_append_getLast hv', ← List.append_assoc, hwz] at e
            obtain ⟨e1, _⟩ := List.append_inj' e rfl
            exact ihn p hp u v.dropLast e1 (by simp [hv])
        obtain ⟨z, hz, hzw⟩ := pre w.length y hy (word x ++ [l]) w (by rw [e]; simp) rfl
        rw [(T.findKid hx).2 ⟨hz, hzw⟩] at hf
        cases hf
    | some k =>
      obtain ⟨hk, hw⟩ := (T.findKid hx).1 hf
      dsimp only
      rw [ih hk, hw, List.append_assoc]
      rfl

/-! ### New nodes -/

/-- The heap after a new node with the label `l` has been added below `n`. -/
def grown (h : Heap) (n c : ℕ) (l : String) : Heap := (h.alloc ⟨l, 0, [], some n⟩).addKid n h.size c

theorem alloc_node (v : Node) {x : ℕ} (hx : x ≠ h.size) : (h.alloc v).node x = h.node x := by unfold alloc; simp [hx]
theorem alloc_new (v : Node) : (h.alloc v).node h.size = v := by unfold alloc; simp

theorem Tree.grow (T : Tree h word Pw pc tc) {n c : ℕ} {l : String} (hn : n < h.size) (hnew : ¬ Pw (word n ++ [l]))
    (hlab : ∀ q ∈ h.kids n, h.label q.1 ≤ l) (htc : tc (word n ++ [l]) = 0) :
    (grown h n c l).kids n = h.kids n ++ [(h.size, c)] ∧
    Tree (grown h n c l) (fun x => if x = h.size then word n ++ [l] else word x) (fun w => Pw w ∨ w = word n ++ [l])
      (fun w => pc w + if w = word n ++ [l] then c else 0) tc := by
  have hns : n ≠ h.size := by omega
  have hlabel : ∀ x, x ≠ h.size → (grown h n c l).label x = h.label x := fun x hx => by
    unfold grown; rw [addKid_label]; exact label_congr (alloc_node _ hx)
  have hlabel' : (grown h n c l).label h.size = l := by
    unfold grown; rw [addKid_label]; unfold label; rw [alloc_new]
  have hstrict : ∀ q ∈ h.kids n, h.label q.1 < l := by
    intro q hq
    refine lt_of_le_of_ne (hlab q hq) (fun e => hnew ?_)
    obtain ⟨a, _, b, _⟩ := T.kid n hn q hq
    rw [T.words]
    exact ⟨q.1, a, by rw [b, e]⟩
  have hkn : (h.alloc ⟨l, 0, [], some n⟩).kids n = h.kids n := kids_congr (alloc_node _ hns)
  have hkq : ∀ x < h.size, ∀ q ∈ h.kids x, (h.alloc ⟨l, 0, [], some n⟩).label q.1 = h.label q.1 := fun x hx q hq => by
    refine label_congr (alloc_node _ ?_)
    have := (T.kid x hx q hq).1
    omega
  have hkids : (grown h n c l).kids n = h.kids n ++ [(h.size, c)] := by
    unfold grown
    rw [addKid_last, hkn]
    · rw [hkn, List.map_congr_left (hkq n hn)]; exact T.sorted n hn
    · rw [hkn]
      intro q hq
      rw [hkq n hn q hq]
      have : (h.alloc ⟨l, 0, [], some n⟩).label h.size = l := by unfold label; rw [alloc_new]
      rw [this]
      exact hstrict q hq
  have hkids' : ∀ x, x ≠ n → x ≠ h.size → (grown h n c l).kids x = h.kids x := fun x hx hx' => by
    unfold grown; rw [addKid_kids_ne _ _ _ _ _ hx]; exact kids_congr (alloc_node _ hx')
  have hkidsz : (grown h n c l).kids h.size = [] := by
    unfold grown; rw [addKid_kids_ne _ _ _ _ _ (fun e => hns e.symm)]; unfold kids; rw [alloc_new]
  have hpar : ∀ x, x ≠ h.size → (grown h n c l).parent x = h.parent x := fun x hx => by
    unfold grown; rw [addKid_parent]; exact parent_congr (alloc_node _ hx)
  have hpar' : (grown h n c l).parent h.size = some n := by
    unfold grown; rw [addKid_parent]; unfold parent; rw [alloc_new]
  have hcount : ∀ x, x ≠ h.size → (grown h n c l).count x = h.count x := fun x hx => by
    unfold grown; rw [addKid_count]; exact count_congr (alloc_node _ hx)
  have hcount' : (grown h n c l).count h.size = 0 := by
    unfold grown; rw [addKid_count]; unfold count; rw [alloc_new]
  have hsize : (grown h n c l).size = h.size + 1 := rfl
  have hold : ∀ x < h.size, x ≠ h.size := fun x hx => by omega
  have hne : ∀ x < h.size, word x ≠ word n ++ [l] := fun x hx e => hnew ((T.words _).2 ⟨x, hx, e⟩)
  have hmemk : ∀ x < h.size, ∀ q, q ∈ (grown h n c l).kids x ↔ q ∈ h.kids x ∨ (x = n ∧ q = (h.size, c)) := by
    intro x hx q
    by_cases e : x = n
    · subst e; rw [hkids]; simp
    · rw [hkids' x e (hold x hx)]; simp [e]
  refine ⟨hkids, ⟨by rw [hsize]; omega, ?_, ?_, ?_, ?_, ?_, ?_, ?_, ?_, ?_⟩⟩
  · rw [if_neg (by have := T.pos; omega)]; exact T.w0
  · intro x hx q hq
    rw [hsize] at hx ⊢
    by_cases hxs : x = h.size
    · subst hxs; rw [hkidsz] at hq; cases hq
    · have hx' : x < h.size := by omega
      rcases (hmemk x hx' q).1 hq with hq | ⟨rfl, rfl⟩
      · obtain ⟨a, b, c', d, e⟩ := T.kid x hx' q hq
        have hqs := hold q.1 a
        refine ⟨by omega, b, ?_, ?_, ?_⟩
        · rw [if_neg hqs, if_neg hxs, hlabel q.1 hqs]; exact c'
        · rw [hpar q.1 hqs]; exact d
        · rw [if_neg hqs, if_neg (hne q.1 a), add_zero]; exact e
      · dsimp only
        refine ⟨by omega, by have := T.pos; omega, ?_, hpar', ?_⟩
        · rw [if_pos rfl, if_neg hxs, hlabel']
        · rw [if_pos rfl, if_pos rfl, T.pc0 _ hnew, zero_add]
  · intro k hk hk0
    rw [hsize] at hk ⊢
    by_cases hks : k = h.size
    · subst hks
      exact ⟨n, by omega, by unfold Kid; rw [hkids]; simp⟩
    · obtain ⟨x, hx, hkx⟩ := T.isKid k (by omega) hk0
      obtain ⟨c', hc'⟩ := kid_iff.1 hkx
      exact ⟨x, by omega, kid_of_mem ((hmemk x hx (k, c')).2 (.inl hc'))⟩
  · intro x hx
    rw [hsize] at hx
    by_cases hxs : x = h.size
    · subst hxs; rw [hkidsz]; exact List.Pairwise.nil
    · have hx' : x < h.size := by omega
      have hm : (h.kids x).map (fun q => (grown h n c l).label q.1) = (h.kids x).map (fun q => h.label q.1) := by
        apply List.map_congr_left
        intro q hq
        exact hlabel q.1 (hold _ (T.kid x hx' q hq).1)
      by_cases e : x = n
      · subst e
        rw [hkids, List.map_append, hm, List.pairwise_append]
        refine ⟨T.sorted x hn, List.pairwise_singleton _ _, ?_⟩
        intro a ha b hb
        simp only [List.map_cons, List.map_nil, List.mem_singleton, hlabel'] at hb
        subst hb
        obtain ⟨q, hq, rfl⟩ := List.mem_map.1 ha
        exact hstrict q hq
      · rw [hkids' x e hxs, hm]; exact T.sorted x hx'
  · intro x hx
    rw [hsize] at hx
    by_cases hxs : x = h.size
    · rw [if_pos hxs, htc]; subst hxs; exact hcount'
    · rw [if_neg hxs, hcount x hxs]; exact T.cnt x (by omega)
  · intro w
    rw [hsize]
    constructor
    · rintro (hw | rfl)
      · obtain ⟨x, hx, e⟩ := (T.words w).1 hw
        exact ⟨x, by omega, by rw [if_neg (hold x hx)]; exact e⟩
      · exact ⟨h.size, by omega, by rw [if_pos rfl]⟩
    · rintro ⟨x, hx, e⟩
      split_ifs at e with hxs
      · exact .inr e.symm
      · exact .inl ((T.words w).2 ⟨x, by omega, e⟩)
  · intro x hx y hy e
    rw [hsize] at hx hy
    split_ifs at e with h1 h2 h2
    · omega
    · exact absurd e.symm (hne y (by omega))
    · exact absurd e (hne x (by omega))
    · exact T.inj x (by omega) y (by omega) e
  · intro x hx
    rw [hsize] at hx
    rw [hkids' x (by omega) (by omega)]
    exact T.unused x (by omega)
  · intro w hw
    rw [if_neg (fun e => hw (.inr e)), add_zero]
    exact T.pc0 w (fun e => hw (.inl e))

/-- `Tree` only depends on the values of the functions. -/
theorem Tree.congr {Pw' : List String → Prop} {pc' tc' : List String → ℕ} (T : Tree h word Pw pc tc) (h1 : ∀ w, Pw w ↔ Pw' w)
    (h2 : ∀ w, pc w = pc' w) (h3 : ∀ w, tc w = tc' w) : Tree h word Pw' pc' tc' := by
  have e1 : Pw = Pw' := funext (fun w => propext (h1 w))
  have e2 : pc = pc' := funext h2
  have e3 : tc = tc' := funext h3
  rw [← e1, ← e2, ← e3]; exact T

theorem prefix_snoc_iff {w u : List String} {l : String} {s : List String} :
    (u ++ [l] <+: w ∧ w <+: u ++ [l] ++ s) ∨ w = u ↔ u <+: w ∧ w <+: u ++ [l] ++ s := by
  constructor
  · rintro (⟨h1, h2⟩ | rfl)
    · exact ⟨(List.prefix_append u [l]).trans h1, h2⟩
    · exact ⟨List.prefix_rfl, by rw [List.append_assoc]; exact List.prefix_append _ _⟩
  · rintro ⟨h1, h2⟩
    by_cases e : w = u
    · exact .inr e
    · left
      refine ⟨?_, h2⟩
      have h3 : u ++ [l] <+: u ++ [l] ++ s := List.prefix_append _ _
      refine List.prefix_of_prefix_length_le h3 h2 ?_
      have h4 := h1.length_le
      have h5 : u.length ≠ w.length := fun hl => e (h1.eq_of_length hl).symm
      simp; omega

/-- The words strictly after `u` on the way to `u ++ s`. -/
def OnWay (u s w : List String) : Prop := u <+: w ∧ w ≠ u ∧ w <+: u ++ s

theorem onWay_cons {u s w : List String} {l : String} : OnWay u (l :: s) w ↔ w = u ++ [l] ∨ OnWay (u ++ [l]) s w := by
  unfold OnWay
  have e : u ++ l :: s = u ++ [l] ++ s := by simp
  rw [e]
  constructor
  · rintro ⟨h1, h2, h3⟩
    have := (prefix_snoc_iff (l := l) (s := s)).2 ⟨h1, h3⟩
    rcases this with ⟨h4, _⟩ | h4
    · by_cases e : w = u ++ [l]
      · exact .inl e
      · exact .inr ⟨h4, e, h3⟩
    · exact absurd h4 h2
  · rintro (rfl | ⟨h1, h2, h3⟩)
    · exact ⟨List.prefix_append _ _, by simp, List.prefix_append _ _⟩
    · refine ⟨(List.prefix_append u [l]).trans h1, ?_, h3⟩
      rintro rfl
      have := h1.length_le
      simp at this

theorem onWay_nil {u w : List String} : ¬ OnWay u [] w := by
  rintro ⟨h1, h2, h3⟩
  rw [List.append_nil] at h3
  exact h2 (h3.eq_of_length_le h1.length_le)

theorem addKids_eq (n c : ℕ) (l : String) (s : List String) :
    addKids h n c (l :: s) = addKids (grown h n c l) ((((grown h n c l).kids n).getLast?.map (·.1)).getD 0) c s := rfl

open Classical in
/-- The chain of new nodes of `addKids`. -/
theorem Tree.addKids (s : List String) (h : Heap) (word : ℕ → List String) (Pw : List String → Prop) (pc : List String → ℕ)
    (T : Tree h word Pw pc tc) (n c : ℕ) (hn : n < h.size) (hnew : ∀ w, OnWay (word n) s w → ¬ Pw w)
    (hlab : ∀ l s', s = l :: s' → ∀ q ∈ h.kids n, h.label q.1 ≤ l) (htc : ∀ w, OnWay (word n) s w → tc w = 0) :
    ∃ word', Tree (addKids h n c s).1 word' (fun w => Pw w ∨ OnWay (word n) s w)
        (fun w => pc w + if OnWay (word n) s w then c else 0) tc ∧
      (addKids h n c s).2 < (addKids h n c s).1.size ∧ word' (addKids h n c s).2 = word n ++ s := by
  induction s generalizing h word Pw pc n with
  | nil =>
    refine ⟨word, T.congr (fun w => ?_) (fun w => ?_) (fun _ => rfl), hn, by rw [List.append_nil]; rfl⟩
    · simp [onWay_nil]
    · simp [onWay_nil]
  | cons l s ih =>
    obtain ⟨hk, T1⟩ := T.grow (c := c) hn (hnew _ (onWay_cons.2 (.inl rfl))) (hlab l s rfl) (htc _ (onWay_cons.2 (.inl rfl)))
    rw [addKids_eq]
    have hlast : (((grown h n c l).kids n).getLast?.map (·.1)).getD 0 = h.size := by rw [hk]; simp
    rw [hlast]
    have hkz : (grown h n c l).kids h.size = [] := by
      unfold grown
      rw [addKid_kids_ne _ _ _ _ _ (by omega)]; unfold kids; rw [alloc_new]
    obtain ⟨word', T2, h2, h3⟩ := ih (grown h n c l) _ _ _ T1 h.size (by show h.size < h.size + 1; omega)
      (by
        rw [if_pos rfl]
        intro w hw hP
        rcases hP with hP | hP
        · exact hnew w (onWay_cons.2 (.inr hw)) hP
        · exact hw.2.1 hP)
      (by intro l' s' _ q hq; rw [hkz] at hq; cases hq)
      (by
        rw [if_pos rfl]
        intro w hw
        exact htc w (onWay_cons.2 (.inr hw)))
    rw [if_pos rfl] at T2 h3
    refine ⟨word', T2.congr (fun w => ?_) (fun w => ?_) (fun _ => rfl), h2, by rw [h3]; simp⟩
    · rw [onWay_cons]; tauto
    · rw [onWay_cons]
      by_cases e : w = word n ++ [l]
      · have : ¬ OnWay (word n ++ [l]) s w := fun e' => e'.2.1 e
        simp [e, this]
        intro h'
        exact absurd h' (fun e' => e'.2.1 rfl)
      · simp [e]

/-! ### The traces -/

theorem Tree.setCount (T : Tree h word Pw pc tc) {n : ℕ} (hn : n < h.size) (c : ℕ) :
    Tree (h.setCount n c) word Pw pc (fun w => if w = word n then c else tc w) := by
  have hd : ∀ x k, (h.setCount n c).Kid x k ↔ h.Kid x k := fun x k => by unfold Kid; rw [setCount_kids]
  refine ⟨T.pos, T.w0, ?_, ?_, ?_, ?_, T.words, T.inj, ?_, T.pc0⟩
  · intro x hx q hq
    rw [setCount_kids] at hq
    rw [setCount_label, setCount_parent]
    exact T.kid x hx q hq
  · intro k hk hk0
    obtain ⟨x, hx, hkx⟩ := T.isKid k hk hk0
    exact ⟨x, hx, (hd x k).2 hkx⟩
  · intro x hx
    rw [setCount_kids]
    simp only [setCount_label]
    exact T.sorted x hx
  · intro x hx
    rw [setCount_count]
    by_cases e : x = n
    · rw [if_pos e, if_pos (by rw [e])]
    · rw [if_neg e, if_neg (fun e' => e (T.inj x hx n hn e'))]
      exact T.cnt x hx
  · intro x hx; rw [setCount_kids]; exact T.unused x hx

theorem Tree.incKid (T : Tree h word Pw pc tc) {n k c : ℕ} {l : String} (hn : n < h.size) (hf : h.findKid n l = some k) :
    Tree (h.incKid n l c).1 word Pw (fun w => pc w + if w = word n ++ [l] then c else 0) tc := by
  obtain ⟨hk, hkw⟩ := (T.findKid hn).1 hf
  have hkl := (findKid_some hf).2
  have hmap : (h.incKid n l c).1.kids n = (h.kids n).map (fun q => if h.label q.1 = l then (q.1, q.2 + c) else q) := by
    show (h.setKids n (incFirst (fun k => h.label k = l) c (h.kids n))).kids n = _
    rw [setKids_kids, if_pos rfl, incFirst_map]
    · simp
    · have := T.sorted n hn
      rw [List.pairwise_map] at this
      refine this.imp ?_
      intro a b hab hc
      simp only [decide_eq_true_eq] at hc
      rw [hc.1, hc.2] at hab
      exact lt_irrefl _ hab
  have hkids : ∀ x, x ≠ n → (h.incKid n l c).1.kids x = h.kids x := fun x hx => by
    show (h.setKids n _).kids x = _
    rw [setKids_kids, if_neg hx]
  have hlab : ∀ x, (h.incKid n l c).1.label x = h.label x := fun x => setKids_label h n x _
  have hpar : ∀ x, (h.incKid n l c).1.parent x = h.parent x := fun x => setKids_parent h n x _
  have hcnt : ∀ x, (h.incKid n l c).1.count x = h.count x := fun x => setKids_count h n x _
  have hsize : (h.incKid n l c).1.size = h.size := rfl
  have hfst : ∀ x, ((h.incKid n l c).1.kids x).map (·.1) = (h.kids x).map (·.1) := by
    intro x
    by_cases e : x = n
    · subst e
      rw [hmap, List.map_map]
      apply List.map_congr_left
      intro q _
      simp only [Function.comp_apply]
      split_ifs <;> rfl
    · rw [hkids x e]
  have hkey : ∀ x < h.size, ∀ q ∈ h.kids x, (word q.1 = word n ++ [l] ↔ x = n ∧ h.label q.1 = l) := by
    intro x hx q hq
    obtain ⟨a, b, c', _⟩ := T.kid x hx q hq
    constructor
    · intro e
      rw [c'] at e
      obtain ⟨e1, e2⟩ := List.append_inj' e rfl
      exact ⟨T.inj x hx n hn e1, by simpa using e2⟩
    · rintro ⟨rfl, e⟩; rw [c', e]
  refine ⟨T.pos, T.w0, ?_, ?_, ?_, ?_, T.words, T.inj, ?_, ?_⟩
  · intro x hx q hq
    rw [hsize] at hx ⊢
    rw [hlab, hpar]
    by_cases e : x = n
    · rw [e, hmap] at hq
      obtain ⟨q', hq', e'⟩ := List.mem_map.1 hq
      obtain ⟨a1, a2, a3, a4, a5⟩ := T.kid n hn q' hq'
      have hk' := hkey n hn q' hq'
      subst e
      split_ifs at e' with hl
      · subst e'
        dsimp only
        exact ⟨a1, a2, a3, a4, by rw [if_pos (hk'.2 ⟨rfl, hl⟩), a5]⟩
      · subst e'
        exact ⟨a1, a2, a3, a4, by rw [if_neg (fun e => hl (hk'.1 e).2), a5]; rfl⟩
    · rw [hkids x e] at hq
      obtain ⟨a1, a2, a3, a4, a5⟩ := T.kid x hx q hq
      have hk' := hkey x hx q hq
      exact ⟨a1, a2, a3, a4, by rw [if_neg (fun e' => e (hk'.1 e').1), a5]; rfl⟩
  · intro k' hk' hk0
    obtain ⟨x, hx, hkx⟩ := T.isKid k' hk' hk0
    exact ⟨x, hx, by unfold Kid at hkx ⊢; rw [hfst]; exact hkx⟩
  · intro x hx
    have : ((h.incKid n l c).1.kids x).map (fun q => (h.incKid n l c).1.label q.1) = (h.kids x).map (fun q => h.label q.1) := by
      have e : ∀ l : List (ℕ × ℕ), l.map (fun q => h.label q.1) = (l.map (·.1)).map h.label := fun l => by simp
      simp only [hlab]
      rw [e, e, hfst]
    rw [this]
    exact T.sorted x hx
  · intro x hx; rw [hcnt]; exact T.cnt x hx
  · intro x hx
    rw [hkids x (by rw [hsize] at hx; omega)]
    exact T.unused x hx
  · intro w hw
    rw [T.pc0 w hw, if_neg, Nat.add_zero]
    intro e
    exact hw ((T.words w).2 ⟨k, hk, hkw.trans e.symm⟩)

theorem incKid_none {n c : ℕ} {l : String} (hf : h.findKid n l = none) : (h.incKid n l c).1 = h := by
  have e : incFirst (fun k => decide (h.label k = l)) c (h.kids n) = h.kids n := by
    rw [incFirst_map]
    · have : (h.kids n).map (fun q => if decide (h.label q.1 = l) = true then (q.1, q.2 + c) else q) = (h.kids n).map id := by
        apply List.map_congr_left
        intro q hq
        have := findKid_none.1 hf q.1 (kid_of_mem hq)
        simp [this]
      rw [this, List.map_id]
    · rw [List.pairwise_iff_forall_sublist]
      intro a b hs hc
      have ha : a ∈ h.kids n := hs.subset (by simp)
      exact findKid_none.1 hf a.1 (kid_of_mem ha) (by simpa using hc.1)
  unfold Heap.incKid
  dsimp only
  rw [e]
  unfold setKids Heap.set kids
  cases h with
  | mk size node =>
    simp only [Heap.mk.injEq, true_and]
    funext y
    split_ifs with hy
    · subst hy; rfl
    · rfl

open Classical in
/-- One trace: the transitions on its way carry more traces, its end has its number. -/
theorem Tree.insertTrace (s : List String) (p : PTA) (word : ℕ → List String) (pc : List String → ℕ)
    (T : Tree p.heap word Pw pc tc) (n c : ℕ) (hn : n < p.heap.size)
    (hord : ∀ v a b, Pw (v ++ [b]) → word n <+: v → v ++ [a] <+: word n ++ s → b ≤ a)
    (htc : ∀ w, ¬ Pw w → tc w = 0) (hpre : ∀ v l, Pw (v ++ [l]) → Pw v) :
    ∃ word', Tree (insertTrace p n c s).heap word' (fun w => Pw w ∨ OnWay (word n) s w)
        (fun w => pc w + if OnWay (word n) s w then c else 0) (fun w => if w = word n ++ s then c else tc w) := by
  induction s generalizing p pc n with
  | nil =>
    refine ⟨word, (T.setCount hn c).congr (fun w => ?_) (fun w => ?_) (fun w => ?_)⟩
    · simp [onWay_nil]
    · simp [onWay_nil]
    · simp
  | cons l s ih =>
    unfold Alergia.insertTrace
    dsimp only
    have e2 : (p.heap.incKid n l c).2 = p.heap.findKid n l := rfl
    rw [e2]
    cases hf : p.heap.findKid n l with
    | none =>
      dsimp only
      rw [incKid_none hf]
      have hnew : ∀ w, OnWay (word n) (l :: s) w → ¬ Pw w := by
        have h0 : ¬ Pw (word n ++ [l]) := by
          intro hP
          obtain ⟨k, hk, hw⟩ := (T.words _).1 hP
          rw [(T.findKid hn).2 ⟨hk, hw⟩] at hf
          cases hf
        have hup : ∀ v u, Pw (u ++ v) → Pw u := by
          intro v
          induction v using List.reverseRecOn with
          | nil => intro u h; simpa using h
          | append_singleton v a ihv => intro u h; rw [← List.append_assoc] at h; exact ihv u (hpre _ _ h)
        intro w hw hP
        rcases onWay_cons.1 hw with rfl | hw
        · exact h0 hP
        · obtain ⟨v, rfl⟩ := hw.1
          exact h0 (hup v _ hP)
      obtain ⟨word', T1, h1, h2⟩ := Tree.addKids (l :: s) p.heap word Pw pc T n c hn hnew
        (by
          intro l' s' e q hq
          injection e with e1 e3
          subst e1
          obtain ⟨a, _, b, _⟩ := T.kid n hn q hq
          refine hord (word n) l _ ?_ List.prefix_rfl ?_
          · rw [← b]; exact (T.words _).2 ⟨q.1, a, rfl⟩
          · exact ⟨s, by simp⟩)
        (fun w hw => htc w (hnew w hw))
      exact ⟨word', (T1.setCount h1 c).congr (fun _ => Iff.rfl) (fun _ => rfl) (fun w => by rw [h2])⟩
    | some k =>
      dsimp only
      obtain ⟨hk, hw⟩ := (T.findKid hn).1 hf
      have T1 := T.incKid (c := c) hn hf
      obtain ⟨word', T2⟩ := ih ⟨(p.heap.incKid n l c).1, if l ∈ p.alphabet then p.alphabet else p.alphabet ++ [l]⟩ _ T1 k hk
        (by
          intro v a b hP hv hpref
          rw [hw] at hv hpref
          refine hord v a b hP ((List.prefix_append _ _).trans hv) ?_
          simpa using hpref)
      rw [hw] at T2
      refine ⟨word', T2.congr (fun w => ?_) (fun w => ?_) (fun w => ?_)⟩
      · rw [onWay_cons]
        constructor
        · rintro (h | h)
          · exact .inl h
          · exact .inr (.inr h)
        · rintro (h | rfl | h)
          · exact .inl h
          · exact .inl ((T.words _).2 ⟨k, hk, hw⟩)
          · exact .inr h
      · rw [onWay_cons]
        by_cases e : w = word n ++ [l]
        · have : ¬ OnWay (word n ++ [l]) s w := fun e' => e'.2.1 e
          simp [e]
          intro h'
          exact absurd h' (fun e' => e'.2.1 rfl)
        · simp [e]
      · simp

/-! ### All the traces -/

theorem prefixCount_append (ts us : List (List String × ℕ)) (w : List String) :
    prefixCount (ts ++ us) w = prefixCount ts w + prefixCount us w := by simp [prefixCount]

theorem traceCount_append (ts us : List (List String × ℕ)) (w : List String) :
    traceCount (ts ++ us) w = traceCount ts w + traceCount us w := by simp [traceCount]

/-- The tree of the traces `ts`. -/
def TreeOf (h : Heap) (word : ℕ → List String) (ts : List (List String × ℕ)) : Prop :=
  Tree h word (fun w => w = [] ∨ ∃ t ∈ ts, w <+: t.1) (fun w => if w = [] then 0 else prefixCount ts w) (traceCount ts)

theorem treeOf_empty : TreeOf emptyPTA.heap (fun _ => []) [] := by
  have hs : emptyPTA.heap.size = 1 := rfl
  have hk : ∀ x, emptyPTA.heap.kids x = [] := fun _ => rfl
  refine ⟨by decide, rfl, ?_, ?_, ?_, ?_, ?_, ?_, fun x _ => hk x, ?_⟩
  · intro x _ q hq; rw [hk] at hq; cases hq
  · intro k h1 h2; rw [hs] at h1; omega
  · intro x _; rw [hk]; exact List.Pairwise.nil
  · intro x _; rfl
  · intro w
    constructor
    · rintro (rfl | ⟨t, ht, _⟩)
      · exact ⟨0, by decide, rfl⟩
      · cases ht
    · rintro ⟨_, _, rfl⟩; exact .inl rfl
  · intro x hx y hy _; rw [hs] at hx hy; omega
  · intro w hw; simp [prefixCount]

theorem TreeOf.insert {p : PTA} {ts : List (List String × ℕ)} (T : TreeOf p.heap word ts) {t : List String × ℕ}
    (hs : ∀ u ∈ ts, u.1 < t.1) : ∃ word', TreeOf (insertTrace p 0 t.2 t.1).heap word' (ts ++ [t]) := by
  have hnil : ∀ w, OnWay [] t.1 w ↔ w ≠ [] ∧ w <+: t.1 := fun w => by simp [OnWay]
  obtain ⟨word', T1⟩ := Tree.insertTrace t.1 p word _ T 0 t.2 T.pos
    (by
      rw [T.w0]
      intro v a b hP _ hpref
      rcases hP with e | ⟨u, hu, hup⟩
      · simp at e
      · obtain ⟨r1, e1⟩ := hup
        obtain ⟨r2, e2⟩ := hpref
        rw [List.nil_append] at e2
        have hlt := hs u hu
        rw [← e1, ← e2] at hlt
        by_contra hab
        push Not at hab
        have : v ++ [a] ++ r2 < v ++ [b] ++ r1 := by
          rw [List.append_assoc, List.append_assoc]
          apply List.append_left_lt
          exact List.Lex.rel hab
        exact lt_asymm hlt this)
    (by
      intro w hw
      unfold traceCount
      have : ts.filter (fun t => decide (t.1 = w)) = [] := by
        rw [List.filter_eq_nil_iff]
        intro u hu e
        exact hw (.inr ⟨u, hu, by rw [of_decide_eq_true e]⟩)
      rw [this]; rfl)
    (by
      rintro v l (e | ⟨u, hu, hup⟩)
      · simp at e
      · exact .inr ⟨u, hu, (List.prefix_append _ _).trans hup⟩)
  rw [T.w0] at T1
  refine ⟨word', T1.congr (fun w => ?_) (fun w => ?_) (fun w => ?_)⟩
  · rw [hnil]
    simp only [List.mem_append, List.mem_singleton]
    constructor
    · rintro ((e | ⟨u, hu, hup⟩) | ⟨_, hup⟩)
      · exact .inl e
      · exact .inr ⟨u, .inl hu, hup⟩
      · exact .inr ⟨t, .inr rfl, hup⟩
    · rintro (e | ⟨u, hu | rfl, hup⟩)
      · exact .inl (.inl e)
      · exact .inl (.inr ⟨u, hu, hup⟩)
      · by_cases e : w = []
        · exact .inl (.inl e)
        · exact .inr ⟨e, hup⟩
  · rw [hnil, prefixCount_append]
    by_cases e : w = []
    · simp [e]
    · by_cases e2 : w <+: t.1 <;> simp [e, e2, prefixCount]
  · rw [traceCount_append, List.nil_append]
    by_cases e : w = t.1
    · subst e
      have : ts.filter (fun u => decide (u.1 = t.1)) = [] := by
        rw [List.filter_eq_nil_iff]
        intro u hu e
        have := hs u hu
        rw [of_decide_eq_true e] at this
        exact lt_irrefl _ this
      simp [traceCount, this]
    · have e' : t.1 ≠ w := fun e'' => e e''.symm
      simp [traceCount, e, e']

/-- The tree of a sorted list of distinct traces. -/
theorem treeOf_foldl (ts : List (List String × ℕ)) (hs : ts.Pairwise (fun a b => a.1 < b.1)) :
    ∃ word, TreeOf (ts.foldl (fun p q => insertTrace p 0 q.2 q.1) emptyPTA).heap word ts := by
  induction ts using List.reverseRecOn with
  | nil => exact ⟨_, treeOf_empty⟩
  | append_singleton ts t ih =>
    rw [List.pairwise_append] at hs
    obtain ⟨word, T⟩ := ih hs.1
    rw [List.foldl_append]
    exact T.insert (fun u hu => hs.2.2 u hu t (by simp))

end Jajapy.Alergia
