import Verif.Lemmas.IOAlergiaGraph
import Mathlib.Data.List.Count

/-!
The automaton as a graph: what `redirect`, `transitionsAdd` and `merge` do to the transitions.
-/

namespace Jajapy.IOAlergia

open Relation

namespace Auto

/-- The transition of a state for an action and an observation. -/
def look (A : Auto) : Graph := fun x k =>
  if k.1 ∈ (A.node x).acts then ((A.node x).trans k.1).find? (fun q => (A.node q.2).obs = k.2) else none

/-- The states are well formed; in particular a state has at most one successor with a given action and observation. -/
structure WF (A : Auto) : Prop where
  dest : ∀ {x a q}, a ∈ (A.node x).acts → q ∈ (A.node x).trans a → q.2 < A.size
  out : ∀ {x}, A.size ≤ x → (A.node x).acts = []
  nodup : ∀ x, (A.node x).acts.Nodup
  det : ∀ {x a}, a ∈ (A.node x).acts → (((A.node x).trans a).map (fun q => (A.node q.2).obs)).Nodup
  nonempty : ∀ {x a}, a ∈ (A.node x).acts → (A.node x).trans a ≠ []
  pos : ∀ {x a q}, a ∈ (A.node x).acts → q ∈ (A.node x).trans a → 0 < q.1
  acts : ∀ {x a}, a ∈ (A.node x).acts → a ∈ A.actions
  obs : ∀ {x}, x < A.size → (A.node x).obs ∈ A.observations
  obsNodup : A.observations.Nodup

/-- What the merging does not change. -/
structure Same (A A' : Auto) : Prop where
  size : A'.size = A.size
  observations : A'.observations = A.observations
  actions : A'.actions = A.actions
  initial : A'.initial = A.initial
  obs : ∀ x, (A'.node x).obs = (A.node x).obs
  label : ∀ x, (A'.node x).label = (A.node x).label

theorem Same.refl (A : Auto) : Same A A := ⟨rfl, rfl, rfl, rfl, fun _ => rfl, fun _ => rfl⟩

theorem Same.trans {A A' A'' : Auto} (h : Same A A') (h' : Same A' A'') : Same A A'' :=
  ⟨h'.size.trans h.size, h'.observations.trans h.observations, h'.actions.trans h.actions, h'.initial.trans h.initial,
    fun x => (h'.obs x).trans (h.obs x), fun x => (h'.label x).trans (h.label x)⟩

theorem successor_eq (A : Auto) (s : ℕ) (a o : String) : A.successor s a o = (A.look s (a, o)).map (·.2) := by
  unfold successor look Node.succAction
  by_cases h : a ∈ (A.node s).acts
  · simp only [h, if_true]
    rw [List.find?_map]
    rfl
  · simp only [h, if_false]
    rfl

theorem nodup_map_eq {α β : Type} {f : α → β} : ∀ {l : List α}, (l.map f).Nodup → ∀ {p q : α}, p ∈ l → q ∈ l → f p = f q → p = q
  | [], _, _, _, hp, _, _ => by cases hp
  | x :: l, hn, p, q, hp, hq, e => by
    rw [List.map_cons, List.nodup_cons] at hn
    rcases List.mem_cons.1 hp with h1 | h1 <;> rcases List.mem_cons.1 hq with h2 | h2
    · rw [h1, h2]
    · exact absurd (by rw [← h1, e]; exact List.mem_map_of_mem h2) hn.1
    · exact absurd (by rw [← h2, ← e]; exact List.mem_map_of_mem h1) hn.1
    · exact nodup_map_eq hn.2 h1 h2 e

theorem look_iff {A : Auto} (W : A.WF) {x : ℕ} {a o : String} {q : ℕ × ℕ} :
    A.look x (a, o) = some q ↔ a ∈ (A.node x).acts ∧ q ∈ (A.node x).trans a ∧ (A.node q.2).obs = o := by
  unfold look
  dsimp only
  by_cases h : a ∈ (A.node x).acts
  · rw [if_pos h]
    constructor
    · intro e
      exact ⟨h, List.mem_of_find?_eq_some e, by simpa using List.find?_some e⟩
    · rintro ⟨_, hq, ho⟩
      rcases e : ((A.node x).trans a).find? (fun q => (A.node q.2).obs = o) with _ | q'
      · rw [List.find?_eq_none] at e
        exact absurd (by simpa using ho) (e q hq)
      · have h1 := List.mem_of_find?_eq_some e
        have h2 : (A.node q'.2).obs = o := by simpa using List.find?_some e
        rw [e, nodup_map_eq (W.det h) h1 hq (h2.trans ho.symm)]
  · rw [if_neg h]
    simp [h]

theorem look_key {A : Auto} (W : A.WF) {x : ℕ} {k : Key} {q : ℕ × ℕ} (e : A.look x k = some q) :
    k ∈ keys (A.node x).acts A.observations ∧ k ∈ keys A.actions A.observations ∧ x < A.size ∧ q.2 < A.size ∧ (A.node q.2).obs = k.2 ∧ 0 < q.1 := by
  obtain ⟨a, o⟩ := k
  obtain ⟨h1, h2, h3⟩ := (look_iff W).1 e
  have hq := W.dest h1 h2
  have ho : o ∈ A.observations := h3 ▸ W.obs hq
  refine ⟨?_, ?_, ?_, hq, h3, W.pos h1 h2⟩
  · simp only [keys, List.mem_flatMap, List.mem_map]
    exact ⟨a, h1, o, ho, rfl⟩
  · simp only [keys, List.mem_flatMap, List.mem_map]
    exact ⟨a, W.acts h1, o, ho, rfl⟩
  · by_contra hx
    rw [W.out (not_lt.1 hx)] at h1
    cases h1

theorem prob_eq {A : Auto} (W : A.WF) {x c t : ℕ} {a o : String} (e : A.look x (a, o) = some (c, t)) :
    (A.node x).getTransitionProb a t = c := by
  obtain ⟨h1, h2, h3⟩ := (look_iff W).1 e
  unfold Node.getTransitionProb
  rcases e' : ((A.node x).trans a).find? (fun q => q.2 = t) with _ | q'
  · rw [List.find?_eq_none] at e'
    exact absurd (by simp) (e' _ h2)
  · have hm := List.mem_of_find?_eq_some e'
    have ht : q'.2 = t := by simpa using List.find?_some e'
    have : q' = (c, t) := nodup_map_eq (W.det h1) hm h2 (by rw [ht])
    rw [e', this]; rfl

theorem keys_nodup {l l' : List String} (h : l.Nodup) (h' : l'.Nodup) : (keys l l').Nodup := by
  unfold keys
  rw [List.nodup_flatMap]
  refine ⟨fun a _ => h'.map (fun x y e => (Prod.mk.inj e).2), ?_⟩
  refine h.imp ?_
  intro a b hab
  rw [Function.onFun, List.disjoint_left]
  intro q hq hq'
  obtain ⟨o, _, rfl⟩ := List.mem_map.1 hq
  obtain ⟨o', _, e⟩ := List.mem_map.1 hq'
  exact hab (Prod.mk.inj e).1.symm

/-! ### `redirect` -/

theorem foldl_change (s1 s2 : ℕ) : ∀ (ps : List (ℕ × String)) (A : Auto),
    ps.foldl (fun A p => A.set p.1 ((A.node p.1).transitionChange p.2 s2 s1)) A =
      { A with node := fun i => { A.node i with trans := fun a => (replaceFirst s2 s1)^[ps.count (i, a)] ((A.node i).trans a) } }
  | [], A => by simp
  | p :: ps, A => by
    rw [List.foldl_cons, foldl_change s1 s2 ps]
    obtain ⟨size, node, ob, ac, ini⟩ := A
    simp only [set, Node.transitionChange, Auto.mk.injEq, true_and, and_true]
    funext i
    by_cases hi : i = p.1
    · subst hi
      simp only [if_true, Node.mk.injEq, true_and]
      funext a
      by_cases ha : a = p.2
      · subst ha
        rw [if_pos rfl, List.count_cons_self, Function.iterate_succ_apply]
      · rw [if_neg ha, List.count_cons_of_ne]
        intro e
        exact ha (by rw [e])
    · simp only [hi, if_false, Node.mk.injEq, true_and]
      funext a
      rw [List.count_cons_of_ne]
      intro e
      exact hi (by rw [e])

theorem count_flatMap_key {ι β : Type} [DecidableEq ι] [BEq β] [LawfulBEq β] (f : ι → List β) (key : β → ι) (hk : ∀ j, ∀ y ∈ f j, key y = j) (x : β) :
    ∀ (l : List ι), l.Nodup → (l.flatMap f).count x = if key x ∈ l then (f (key x)).count x else 0
  | [], _ => by simp
  | j :: l, hn => by
    rw [List.nodup_cons] at hn
    rw [List.flatMap_cons, List.count_append, count_flatMap_key f key hk x l hn.2]
    by_cases hj : key x = j
    · subst hj
      simp [hn.1]
    · have : (f j).count x = 0 := List.count_eq_zero.2 (fun hm => hj (hk j x hm))
      simp [this, hj]

theorem replaceFirst_of_none (s1 s2 : ℕ) : ∀ l : List (ℕ × ℕ), (l.map (·.2)).count s2 = 0 → l.map (sub s1 s2) = l
  | [], _ => rfl
  | q :: l, h => by
    rw [List.map_cons, List.count_cons] at h
    have hq : q.2 ≠ s2 := by
      intro e
      rw [e] at h
      simp at h
    rw [List.map_cons, replaceFirst_of_none s1 s2 l (by omega)]
    simp [sub, hq]

theorem iterate_cons_ne (s1 s2 : ℕ) (q : ℕ × ℕ) (hq : q.2 ≠ s2) (l : List (ℕ × ℕ)) (n : ℕ) :
    (replaceFirst s2 s1)^[n] (q :: l) = q :: (replaceFirst s2 s1)^[n] l := by
  induction n generalizing l with
  | zero => rfl
  | succ n ih =>
    rw [Function.iterate_succ_apply, Function.iterate_succ_apply, replaceFirst, if_neg hq, ih]

theorem iterate_replace (s1 s2 : ℕ) (hne : s1 ≠ s2) : ∀ l : List (ℕ × ℕ),
    (replaceFirst s2 s1)^[(l.map (·.2)).count s2] l = l.map (sub s1 s2)
  | [] => rfl
  | q :: l => by
    rw [List.map_cons, List.map_cons, ← iterate_replace s1 s2 hne l]
    by_cases hq : q.2 = s2
    · rw [hq, List.count_cons_self, Function.iterate_succ_apply, replaceFirst, if_pos hq, iterate_cons_ne _ _ _ hne]
      simp [sub, hq]
    · rw [List.count_cons_of_ne hq, iterate_cons_ne _ _ _ hq]
      simp [sub, hq]

theorem count_findPredec {A : Auto} (W : A.WF) (s : ℕ) (i : ℕ) (a : String) :
    (A.findPredec s).count (i, a) = if a ∈ (A.node i).acts then (((A.node i).trans a).map (·.2)).count s else 0 := by
  unfold findPredec
  rw [count_flatMap_key _ (fun p : ℕ × String => p.1) _ _ _ List.nodup_range]
  · dsimp only
    by_cases hi : i ∈ List.range A.size
    · rw [if_pos hi, count_flatMap_key _ (fun p : ℕ × String => p.2) _ _ _ (W.nodup i)]
      · dsimp only
        by_cases ha : a ∈ (A.node i).acts
        · rw [if_pos ha, if_pos ha, Node.succAction, if_pos ha, List.map_const', List.count_replicate_self, List.count_eq_countP,
            List.countP_eq_length_filter]
          congr 1
        · rw [if_neg ha, if_neg ha]
      · intro j y hy
        obtain ⟨_, _, rfl⟩ := List.mem_map.1 hy
        rfl
    · rw [if_neg hi, W.out (by simpa using hi)]
      simp
  · intro j y hy
    obtain ⟨b, _, hy⟩ := List.mem_flatMap.1 hy
    obtain ⟨_, _, rfl⟩ := List.mem_map.1 hy
    rfl

theorem redirect_eq {A : Auto} (W : A.WF) {s1 s2 : ℕ} (hne : s1 ≠ s2) :
    A.redirect s1 s2 = { A with node := fun i => { A.node i with
      trans := fun a => if a ∈ (A.node i).acts then ((A.node i).trans a).map (sub s1 s2) else (A.node i).trans a } } := by
  unfold redirect
  rw [foldl_change]
  obtain ⟨size, node, ob, ac, ini⟩ := A
  simp only [Auto.mk.injEq, true_and, and_true]
  funext i
  simp only [Node.mk.injEq, true_and]
  funext a
  have := count_findPredec W s2 i a
  simp only at this
  rw [this]
  by_cases ha : a ∈ (node i).acts
  · rw [if_pos ha, if_pos ha, iterate_replace s1 s2 hne]
  · rw [if_neg ha, if_neg ha]; rfl

theorem obs_sub {A : Auto} {s1 s2 : ℕ} (ho : (A.node s1).obs = (A.node s2).obs) (q : ℕ × ℕ) :
    (A.node (sub s1 s2 q).2).obs = (A.node q.2).obs := by
  unfold sub
  split
  · rename_i h; rw [h]; exact ho
  · rfl

theorem redirect_same {A : Auto} (W : A.WF) {s1 s2 : ℕ} (hne : s1 ≠ s2) : Same A (A.redirect s1 s2) := by
  rw [redirect_eq W hne]
  exact ⟨rfl, rfl, rfl, rfl, fun _ => rfl, fun _ => rfl⟩

theorem redirect_look {A : Auto} (W : A.WF) {s1 s2 : ℕ} (hne : s1 ≠ s2) (ho : (A.node s1).obs = (A.node s2).obs) (x : ℕ) (k : Key) :
    (A.redirect s1 s2).look x k = (A.look x k).map (sub s1 s2) := by
  rw [redirect_eq W hne]
  unfold look
  dsimp only
  by_cases h : k.1 ∈ (A.node x).acts
  · simp only [h, if_true]
    rw [List.find?_map]
    congr 2
    funext q
    simp only [Function.comp]
    rw [obs_sub ho]
  · simp only [h, if_false]; rfl

theorem redirect_wf {A : Auto} (W : A.WF) {s1 s2 : ℕ} (hne : s1 ≠ s2) (ho : (A.node s1).obs = (A.node s2).obs) (h1 : s1 < A.size) :
    (A.redirect s1 s2).WF := by
  rw [redirect_eq W hne]
  constructor
  · intro x a q ha hq
    dsimp only at ha hq ⊢
    rw [if_pos ha] at hq
    obtain ⟨q', hq', rfl⟩ := List.mem_map.1 hq
    unfold sub
    split
    · exact h1
    · exact W.dest ha hq'
  · exact W.out
  · exact W.nodup
  · intro x a ha
    dsimp only at ha ⊢
    rw [if_pos ha, List.map_map]
    have : (fun q : ℕ × ℕ => (A.node q.2).obs) ∘ sub s1 s2 = fun q => (A.node q.2).obs := by
      funext q; exact obs_sub ho q
    rw [this]
    exact W.det ha
  · intro x a ha
    dsimp only at ha ⊢
    rw [if_pos ha]
    simpa using W.nonempty ha
  · intro x a q ha hq
    dsimp only at ha hq ⊢
    rw [if_pos ha] at hq
    obtain ⟨q', hq', rfl⟩ := List.mem_map.1 hq
    have := W.pos ha hq'
    unfold sub
    split <;> exact this
  · exact W.acts
  · exact W.obs
  · exact W.obsNodup

/-! ### The counters -/

theorem addCounter_node (A : Auto) (s1 s2 x : ℕ) : ((A.addCounter s1 s2).node x).obs = (A.node x).obs ∧
    ((A.addCounter s1 s2).node x).label = (A.node x).label ∧ ((A.addCounter s1 s2).node x).acts = (A.node x).acts ∧
    ((A.addCounter s1 s2).node x).trans = (A.node x).trans := by
  unfold addCounter set
  dsimp only
  by_cases h2 : x = s2 <;> by_cases h1 : x = s1
  · subst h2; subst h1; simp
  · subst h2; simp [h1]
  · subst h1; simp [h2]
  · simp [h1, h2]

theorem addCounter_same (A : Auto) (s1 s2 : ℕ) : Same A (A.addCounter s1 s2) :=
  ⟨rfl, rfl, rfl, rfl, fun x => (addCounter_node A s1 s2 x).1, fun x => (addCounter_node A s1 s2 x).2.1⟩

theorem addCounter_look (A : Auto) (s1 s2 : ℕ) : (A.addCounter s1 s2).look = A.look := by
  funext x k
  unfold look
  rw [(addCounter_node A s1 s2 x).2.2.1, (addCounter_node A s1 s2 x).2.2.2]
  simp only [(addCounter_node A s1 s2 _).1]

theorem addCounter_wf {A : Auto} (W : A.WF) (s1 s2 : ℕ) : (A.addCounter s1 s2).WF := by
  have hn := addCounter_node A s1 s2
  constructor
  · intro x a q ha hq
    rw [(hn x).2.2.1] at ha; rw [(hn x).2.2.2] at hq
    exact W.dest ha hq
  · intro x hx; rw [(hn x).2.2.1]; exact W.out hx
  · intro x; rw [(hn x).2.2.1]; exact W.nodup x
  · intro x a ha
    rw [(hn x).2.2.1] at ha
    rw [(hn x).2.2.2]
    simp only [(hn _).1]
    exact W.det ha
  · intro x a ha
    rw [(hn x).2.2.1] at ha
    rw [(hn x).2.2.2]
    exact W.nonempty ha
  · intro x a q ha hq
    rw [(hn x).2.2.1] at ha; rw [(hn x).2.2.2] at hq
    exact W.pos ha hq
  · intro x a ha
    rw [(hn x).2.2.1] at ha
    exact W.acts ha
  · intro x hx
    rw [(hn x).1]
    exact W.obs hx
  · exact W.obsNodup

/-! ### A new transition -/

theorem set_node (A : Auto) (s : ℕ) (v : Node) (x : ℕ) : (A.set s v).node x = if x = s then v else A.node x := rfl

theorem add_obs (n : Node) (a : String) (c d : ℕ) : (n.transitionsAdd a c d).obs = n.obs ∧ (n.transitionsAdd a c d).label = n.label := by
  unfold Node.transitionsAdd
  split <;> exact ⟨rfl, rfl⟩

theorem add_acts (n : Node) (a : String) (c d : ℕ) : (n.transitionsAdd a c d).acts = if a ∈ n.acts then n.acts else n.acts ++ [a] := by
  unfold Node.transitionsAdd
  split <;> rfl

theorem add_trans (n : Node) (a : String) (c d : ℕ) (b : String) : (n.transitionsAdd a c d).trans b =
    if b = a then (if a ∈ n.acts then n.trans a ++ [(c, d)] else [(c, d)]) else n.trans b := by
  unfold Node.transitionsAdd
  split <;> rfl

theorem add_mem_acts (n : Node) (a : String) (c d : ℕ) (b : String) : b ∈ (n.transitionsAdd a c d).acts ↔ b ∈ n.acts ∨ b = a := by
  rw [add_acts]
  split
  · constructor
    · exact Or.inl
    · rintro (h | rfl) <;> assumption
  · simp

/-- The automaton with a new transition. -/
def addEdge (A : Auto) (s : ℕ) (a : String) (c d : ℕ) : Auto := A.set s ((A.node s).transitionsAdd a c d)

theorem addEdge_obs (A : Auto) (s : ℕ) (a : String) (c d x : ℕ) : ((A.addEdge s a c d).node x).obs = (A.node x).obs := by
  unfold addEdge
  rw [set_node]
  split
  · rename_i h; rw [(add_obs _ _ _ _).1, h]
  · rfl

theorem addEdge_same (A : Auto) (s : ℕ) (a : String) (c d : ℕ) : Same A (A.addEdge s a c d) := by
  refine ⟨rfl, rfl, rfl, rfl, addEdge_obs A s a c d, fun x => ?_⟩
  unfold addEdge
  rw [set_node]
  split
  · rename_i h; rw [(add_obs _ _ _ _).2, h]
  · rfl

theorem addEdge_mem (A : Auto) (s : ℕ) (a : String) (c d : ℕ) {x : ℕ} {b : String} :
    b ∈ ((A.addEdge s a c d).node x).acts ↔ b ∈ (A.node x).acts ∨ (x = s ∧ b = a) := by
  unfold addEdge
  rw [set_node]
  split
  · rename_i h
    subst h
    rw [add_mem_acts]
    simp
  · rename_i h; simp [h]

theorem addEdge_trans (A : Auto) (s : ℕ) (a : String) (c d : ℕ) {x : ℕ} {b : String} :
    ((A.addEdge s a c d).node x).trans b =
      if x = s ∧ b = a then (if a ∈ (A.node s).acts then (A.node s).trans a ++ [(c, d)] else [(c, d)]) else (A.node x).trans b := by
  unfold addEdge
  rw [set_node]
  by_cases h : x = s
  · subst h
    rw [if_pos rfl, add_trans]
    simp
  · rw [if_neg h, if_neg (fun e => h e.1)]

theorem addEdge_trans_mem (A : Auto) (s : ℕ) (a : String) (c d : ℕ) {x : ℕ} {b : String} {q : ℕ × ℕ}
    (hb : b ∈ ((A.addEdge s a c d).node x).acts) :
    q ∈ ((A.addEdge s a c d).node x).trans b ↔ (b ∈ (A.node x).acts ∧ q ∈ (A.node x).trans b) ∨ (x = s ∧ b = a ∧ q = (c, d)) := by
  rw [addEdge_trans]
  rw [addEdge_mem] at hb
  by_cases h : x = s ∧ b = a
  · obtain ⟨rfl, rfl⟩ := h
    rw [if_pos ⟨rfl, rfl⟩]
    split
    · rename_i hm; simp [hm]
    · rename_i hm; simp [hm]
  · rw [if_neg h]
    have hb' : b ∈ (A.node x).acts := hb.resolve_right h
    constructor
    · intro hq; exact Or.inl ⟨hb', hq⟩
    · rintro (hq | hq)
      · exact hq.2
      · exact absurd ⟨hq.1, hq.2.1⟩ h

theorem addEdge_wf {A : Auto} (W : A.WF) {s c d : ℕ} {a : String} (hs : s < A.size) (hd : d < A.size) (hc : 0 < c) (ha : a ∈ A.actions)
    (hn : A.look s (a, (A.node d).obs) = none) : (A.addEdge s a c d).WF := by
  have hobs := addEdge_obs A s a c d
  constructor
  · intro x b q hb hq
    rcases (addEdge_trans_mem A s a c d hb).1 hq with ⟨h1, h2⟩ | ⟨_, _, rfl⟩
    · exact W.dest h1 h2
    · exact hd
  · intro x hx
    have hxs : x ≠ s := by rintro rfl; exact absurd hs (not_lt.2 hx)
    have : (A.addEdge s a c d).node x = A.node x := by unfold addEdge; rw [set_node, if_neg hxs]
    rw [this]
    exact W.out hx
  · intro x
    unfold addEdge
    rw [set_node]
    split
    · rw [add_acts]
      split
      · exact W.nodup s
      · rename_i hm
        rw [List.nodup_append]
        refine ⟨W.nodup s, by simp, ?_⟩
        intro b hb b' hb'
        rw [List.mem_singleton] at hb'
        rintro rfl
        exact hm (hb' ▸ hb)
    · exact W.nodup x
  · intro x b hb
    simp only [hobs]
    rw [addEdge_mem] at hb
    rw [addEdge_trans]
    by_cases h : x = s ∧ b = a
    · obtain ⟨rfl, rfl⟩ := h
      rw [if_pos ⟨rfl, rfl⟩]
      split
      · rename_i hm
        rw [List.map_append, List.nodup_append]
        refine ⟨W.det hm, by simp, ?_⟩
        intro o ho o' ho'
        rw [List.map_singleton, List.mem_singleton] at ho'
        rintro rfl
        obtain ⟨q, hq, e⟩ := List.mem_map.1 ho
        have := (look_iff W (o := (A.node d).obs)).2 ⟨hm, hq, e.trans ho'⟩
        rw [hn] at this
        cases this
      · simp
    · rw [if_neg h]
      exact W.det (hb.resolve_right h)
  · intro x b hb
    rw [addEdge_mem] at hb
    rw [addEdge_trans]
    by_cases h : x = s ∧ b = a
    · rw [if_pos h]
      split <;> simp
    · rw [if_neg h]
      exact W.nonempty (hb.resolve_right h)
  · intro x b q hb hq
    rcases (addEdge_trans_mem A s a c d hb).1 hq with ⟨h1, h2⟩ | ⟨_, _, rfl⟩
    · exact W.pos h1 h2
    · exact hc
  · intro x b hb
    rcases (addEdge_mem A s a c d).1 hb with h | ⟨_, rfl⟩
    · exact W.acts h
    · exact ha
  · intro x hx
    rw [hobs]
    exact W.obs hx
  · exact W.obsNodup

theorem addEdge_look {A : Auto} (W : A.WF) {s c d : ℕ} {a : String} (hs : s < A.size) (hd : d < A.size) (hc : 0 < c) (ha : a ∈ A.actions)
    (hn : A.look s (a, (A.node d).obs) = none) (x : ℕ) (k : Key) :
    (A.addEdge s a c d).look x k = if x = s ∧ k = (a, (A.node d).obs) then some (c, d) else A.look x k := by
  have W' := addEdge_wf W hs hd hc ha hn
  obtain ⟨b, o⟩ := k
  by_cases h : x = s ∧ (b, o) = (a, (A.node d).obs)
  · rw [if_pos h]
    obtain ⟨rfl, e⟩ := h
    obtain ⟨rfl, rfl⟩ := Prod.mk.inj e
    refine (look_iff W').2 ⟨(addEdge_mem A _ _ _ _).2 (Or.inr ⟨rfl, rfl⟩), ?_, addEdge_obs A _ _ _ _ _⟩
    exact (addEdge_trans_mem A _ _ _ _ ((addEdge_mem A _ _ _ _).2 (Or.inr ⟨rfl, rfl⟩))).2 (Or.inr ⟨rfl, rfl, rfl⟩)
  · rw [if_neg h]
    ext q
    rw [look_iff W', look_iff W, addEdge_obs]
    constructor
    · rintro ⟨h1, h2, h3⟩
      rcases (addEdge_trans_mem A s a c d h1).1 h2 with ⟨h1', h2'⟩ | ⟨rfl, rfl, rfl⟩
      · exact ⟨h1', h2', h3⟩
      · exact absurd ⟨rfl, by rw [← h3]⟩ h
    · rintro ⟨h1, h2, h3⟩
      have hm := (addEdge_mem A s a c d (x := x) (b := b)).2 (Or.inl h1)
      exact ⟨hm, (addEdge_trans_mem A s a c d hm).2 (Or.inl ⟨h1, h2⟩), h3⟩

end Auto

end Jajapy.IOAlergia
