import Verif.Heap.WalkerTable

/-
C98: walking over the heap.

What a visitor has to be told is given by the recursive traversal `Walk`; the code does it with a table that grows and a stack of blocks.
-/
namespace Avian.HeapWalk

/-! ### The specification -/

/-- What is to be done: go to an object, or to these references of an object that has a number. -/
inductive Task where
  | visit (p : Nat)
  | kids (p n : Nat) (os : List Nat)

/-- The recursive traversal: `h` is what was told before, `m` are the numbers of the objects that were met; then what is told, and the numbers
afterwards.  An object that has a number is told as an old one; another one gets a number, and then each reference is followed in turn. -/
inductive Walk (g : Graph) (num : List Event → Nat → Nat) : Task → List Event → (Nat → Option Nat) → List Event → (Nat → Option Nat) → Prop where
  | old {h : List Event} {m : Nat → Option Nat} {p n : Nat} (h1 : m p = some n) : Walk g num (.visit p) h m [.old p n] m
  | new {h es : List Event} {m m' : Nat → Option Nat} {p : Nat} (h1 : m p = none)
      (h2 : Walk g num (.kids p (num h p) (g.refs p)) (h ++ [.new p (num h p)]) (put m p (num h p)) es m') :
      Walk g num (.visit p) h m (.new p (num h p) :: es) m'
  | last {h : List Event} {m : Nat → Option Nat} {p n : Nat} : Walk g num (.kids p n []) h m [] m
  | kid {h es es' : List Event} {m m1 m' : Nat → Option Nat} {p n o : Nat} {os : List Nat}
      (h1 : Walk g num (.visit (g.target p o)) (h ++ [.push p n o]) m es m1)
      (h2 : Walk g num (.kids p n os) (h ++ [.push p n o] ++ es ++ [.pop]) m1 es' m') :
      Walk g num (.kids p n (o :: os)) h m (.push p n o :: (es ++ .pop :: es')) m'

/-- An object can be reached. -/
inductive Reach (g : Graph) : Nat → Nat → Prop where
  | refl (p : Nat) : Reach g p p
  | step {p q o : Nat} (h : Reach g p q) (h1 : o ∈ g.refs q) : Reach g p (g.target q o)

/-- The objects that are told as new. -/
def news : List Event → List Nat
  | [] => []
  | .new p _ :: es => p :: news es
  | _ :: es => news es

/-- The references that are told. -/
def pushes : List Event → List (Nat × Nat)
  | [] => []
  | .push p _ o :: es => (p, o) :: pushes es
  | _ :: es => pushes es

/-- Each reference is told with the number of its object, and next comes the object that it leads to, with its number. -/
def Told (g : Graph) (m : Nat → Option Nat) : List Event → Prop
  | [] => True
  | .push p n o :: es => m p = some n ∧ (∃ k, m (g.target p o) = some k ∧ (es.head? = some (.new (g.target p o) k) ∨ es.head? = some (.old (g.target p o) k))) ∧
      Told g m es
  | _ :: es => Told g m es

/-- Each object that is told has this number. -/
def Named (m : Nat → Option Nat) (es : List Event) : Prop := ∀ p n, (.new p n ∈ es ∨ .old p n ∈ es) → m p = some n

/-! ### What follows from the specification -/

theorem news_append : ∀ (a b : List Event), news (a ++ b) = news a ++ news b
  | [], _ => rfl
  | e :: a, b => by cases e <;> simp [news, news_append a b]

theorem pushes_append : ∀ (a b : List Event), pushes (a ++ b) = pushes a ++ pushes b
  | [], _ => rfl
  | e :: a, b => by cases e <;> simp [pushes, pushes_append a b]

theorem Told.append {g : Graph} {m : Nat → Option Nat} : ∀ {a b : List Event}, Told g m a → Told g m b → Told g m (a ++ b)
  | [], _, _, h => h
  | .push p n o :: a, b, ⟨h1, ⟨k, h2, h3⟩, h4⟩, h => by
    refine ⟨h1, ⟨k, h2, ?_⟩, Told.append h4 h⟩
    cases a with
    | nil => rcases h3 with h3 | h3 <;> cases h3
    | cons x a => exact h3
  | .root :: a, b, h1, h => Told.append (a := a) h1 h
  | .new _ _ :: a, b, h1, h => Told.append (a := a) h1 h
  | .old _ _ :: a, b, h1, h => Told.append (a := a) h1 h
  | .pop :: a, b, h1, h => Told.append (a := a) h1 h

theorem Told.mono {g : Graph} {m m' : Nat → Option Nat} (hm : ∀ p n, m p = some n → m' p = some n) : ∀ {a : List Event}, Told g m a → Told g m' a
  | [], _ => trivial
  | .push _ _ _ :: _, ⟨h1, ⟨k, h2, h3⟩, h4⟩ => ⟨hm _ _ h1, ⟨k, hm _ _ h2, h3⟩, Told.mono hm h4⟩
  | .root :: a, h1 => Told.mono (a := a) hm h1
  | .new _ _ :: a, h1 => Told.mono (a := a) hm h1
  | .old _ _ :: a, h1 => Told.mono (a := a) hm h1
  | .pop :: a, h1 => Told.mono (a := a) hm h1

section
variable {g : Graph} {num : List Event → Nat → Nat}

/-- What a task is about. -/
def Task.pre (m : Nat → Option Nat) : Task → Prop
  | .visit _ => True
  | .kids p n os => m p = some n ∧ os.Nodup

/-- The references that a task is to tell, besides those of new objects. -/
def Task.own : Task → List (Nat × Nat)
  | .visit _ => []
  | .kids p _ os => os.map fun o => (p, o)

/-- From where a task gets to other objects. -/
def Task.from_ (g : Graph) : Task → Nat → Prop
  | .visit p, x => Reach g p x
  | .kids p _ os, x => ∃ o ∈ os, Reach g (g.target p o) x

theorem Reach.trans {a b c : Nat} (h : Reach g a b) (h1 : Reach g b c) : Reach g a c := by
  induction h1 with
  | refl => exact h
  | step _ h2 ih => exact .step ih h2

/-- Everything about a traversal at once. -/
structure Facts (g : Graph) (t : Task) (m : Nat → Option Nat) (es : List Event) (m' : Nat → Option Nat) : Prop where
  mono : ∀ x n, m x = some n → m' x = some n
  seen : ∀ x, m' x ≠ none ↔ m x ≠ none ∨ x ∈ news es
  fresh : ∀ x ∈ news es, m x = none
  nodup : (news es).Nodup
  refs : ∀ x o, (x, o) ∈ pushes es ↔ (x, o) ∈ t.own ∨ (x ∈ news es ∧ o ∈ g.refs x)
  once : (pushes es).Nodup
  told : Told g m' es
  named : Named m' es
  reach : ∀ x ∈ news es, t.from_ g x
  first : ∀ p, t = .visit p → ∃ k, m' p = some k ∧ (es.head? = some (.new p k) ∨ es.head? = some (.old p k))

theorem walk_facts (hs : ∀ p, (g.refs p).Nodup) {t : Task} {h es : List Event} {m m' : Nat → Option Nat} (hw : Walk g num t h m es m') :
    t.pre m → Facts g t m es m' := by
  induction hw with
  | old h1 =>
    rename_i h m p n
    intro _
    refine ⟨fun _ _ h => h, fun x => by simp [news], nofun, List.nodup_nil, fun x o => by simp [pushes, Task.own, news], List.nodup_nil, trivial, ?_, nofun, ?_⟩
    · intro q k hq
      rcases hq with hq | hq
      · simp at hq
      · simp at hq; rw [hq.1, hq.2]; exact h1
    · rintro q hq
      cases hq
      exact ⟨n, h1, Or.inr rfl⟩
  | last =>
    intro _
    exact ⟨fun _ _ h => h, fun x => by simp [news], nofun, List.nodup_nil, fun x o => by simp [pushes, Task.own, news], List.nodup_nil, trivial,
      fun q k hq => (by simp at hq), nofun, nofun⟩
  | new h1 h2 ih =>
    rename_i h es m m' p
    intro _
    have f := ih ⟨by unfold put; rw [if_pos rfl], hs p⟩
    have hp : m' p = some (num h p) := f.mono p _ (by unfold put; rw [if_pos rfl])
    have hput : ∀ x, put m p (num h p) x ≠ none ↔ x = p ∨ m x ≠ none := by
      intro x
      unfold put
      by_cases hx : x = p
      · rw [if_pos hx]; simp [hx]
      · rw [if_neg hx]; simp [hx]
    have hpn : p ∉ news es := fun hn => by
      have := f.fresh p hn
      unfold put at this
      rw [if_pos rfl] at this
      cases this
    refine ⟨fun x n hx => f.mono x n ?_, fun x => ?_, fun x hx => ?_, ?_, fun x o => ?_, f.once, f.told, fun q k hq => ?_, fun x hx => ?_, fun q hq => ?_⟩
    · unfold put
      by_cases hxp : x = p
      · rw [hxp, h1] at hx; cases hx
      · rw [if_neg hxp]; exact hx
    · rw [f.seen, hput]
      show _ ↔ _ ∨ x ∈ p :: news es
      rw [List.mem_cons]
      constructor
      · rintro ((h | h) | h)
        · exact Or.inr (Or.inl h)
        · exact Or.inl h
        · exact Or.inr (Or.inr h)
      · rintro (h | h | h)
        · exact Or.inl (Or.inr h)
        · exact Or.inl (Or.inl h)
        · exact Or.inr h
    · rcases List.mem_cons.1 (show x ∈ p :: news es from hx) with rfl | hx
      · exact h1
      · have := f.fresh x hx
        unfold put at this
        by_cases hxp : x = p
        · rw [if_pos hxp] at this; cases this
        · rw [if_neg hxp] at this; exact this
    · exact List.nodup_cons.2 ⟨hpn, f.nodup⟩
    · show (x, o) ∈ pushes es ↔ _ ∨ (x ∈ p :: news es ∧ _)
      rw [f.refs, List.mem_cons]
      show (x, o) ∈ (g.refs p).map (fun o => (p, o)) ∨ _ ↔ (x, o) ∈ [] ∨ _
      rw [List.mem_map]
      constructor
      · rintro (⟨o', h3, h4⟩ | h)
        · cases h4; exact Or.inr ⟨Or.inl rfl, h3⟩
        · exact Or.inr ⟨Or.inr h.1, h.2⟩
      · rintro (h | ⟨rfl | h, h3⟩)
        · cases h
        · exact Or.inl ⟨o, h3, rfl⟩
        · exact Or.inr ⟨h, h3⟩
    · by_cases he : q = p ∧ k = num h p
      · rw [he.1, he.2]; exact hp
      · refine f.named q k ?_
        rcases hq with hq | hq
        · rcases List.mem_cons.1 hq with hq | hq
          · injection hq with h3 h4; exact absurd ⟨h3, h4⟩ he
          · exact Or.inl hq
        · rcases List.mem_cons.1 hq with hq | hq
          · cases hq
          · exact Or.inr hq
    · rcases List.mem_cons.1 (show x ∈ p :: news es from hx) with rfl | hx
      · exact .refl _
      · obtain ⟨o, h3, h4⟩ := f.reach x hx
        exact (Reach.step (.refl p) h3).trans h4
    · cases hq
      exact ⟨_, hp, Or.inl rfl⟩
  | kid h1 h2 ih1 ih2 =>
    rename_i h es es' m m1 m' p n o os
    rintro ⟨hp, hnd⟩
    have hnd' := List.nodup_cons.1 hnd
    have f1 := ih1 trivial
    have f2 := ih2 ⟨f1.mono p n hp, hnd'.2⟩
    have hnews : news (.push p n o :: (es ++ .pop :: es')) = news es ++ news es' := by
      show news (es ++ .pop :: es') = _
      rw [news_append]; rfl
    have hpush : pushes (.push p n o :: (es ++ .pop :: es')) = (p, o) :: (pushes es ++ pushes es') := by
      show (p, o) :: pushes (es ++ .pop :: es') = _
      rw [pushes_append]; rfl
    have hseen : ∀ x, x ∈ news es → m1 x ≠ none := fun x hx => (f1.seen x).2 (Or.inr hx)
    have hp1 : p ∉ news es := fun hx => by have := f1.fresh p hx; rw [hp] at this; cases this
    have hp2 : p ∉ news es' := fun hx => by have := f2.fresh p hx; rw [f1.mono p n hp] at this; cases this
    refine ⟨fun x k hx => f2.mono x k (f1.mono x k hx), fun x => ?_, fun x hx => ?_, ?_, fun x o' => ?_, ?_, ?_, fun q k hq => ?_, fun x hx => ?_, nofun⟩
    · rw [f2.seen, f1.seen, hnews, List.mem_append, or_assoc]
    · rw [hnews, List.mem_append] at hx
      rcases hx with hx | hx
      · exact f1.fresh x hx
      · have := f2.fresh x hx
        cases hmx : m x with
        | none => rfl
        | some k => rw [f1.mono x k hmx] at this; cases this
    · rw [hnews, List.nodup_append]
      refine ⟨f1.nodup, f2.nodup, fun a ha b hb e => ?_⟩
      subst e
      exact hseen a ha (f2.fresh a hb)
    · rw [hpush, hnews, List.mem_cons, List.mem_append, List.mem_append, f1.refs, f2.refs]
      show (x, o') = (p, o) ∨ ((x, o') ∈ [] ∨ _) ∨ ((x, o') ∈ os.map (fun o => (p, o)) ∨ _) ↔ (x, o') ∈ (o :: os).map (fun o => (p, o)) ∨ _
      rw [List.map_cons, List.mem_cons]
      constructor
      · rintro (h | (h | h) | (h | h))
        · exact Or.inl (Or.inl h)
        · cases h
        · exact Or.inr ⟨Or.inl h.1, h.2⟩
        · exact Or.inl (Or.inr h)
        · exact Or.inr ⟨Or.inr h.1, h.2⟩
      · rintro ((h | h) | ⟨h | h, h'⟩)
        · exact Or.inl h
        · exact Or.inr (Or.inr (Or.inl h))
        · exact Or.inr (Or.inl (Or.inr ⟨h, h'⟩))
        · exact Or.inr (Or.inr (Or.inr ⟨h, h'⟩))
    · rw [hpush, List.nodup_cons, List.mem_append, List.nodup_append]
      refine ⟨?_, f1.once, f2.once, fun a ha b hb e => ?_⟩
      · rintro (h | h)
        · rcases (f1.refs p o).1 h with h | h
          · cases h
          · exact hp1 h.1
        · rcases (f2.refs p o).1 h with h | h
          · obtain ⟨o', h3, h4⟩ := List.mem_map.1 h
            cases h4
            exact hnd'.1 h3
          · exact hp2 h.1
      · subst e
        obtain ⟨x, o'⟩ := a
        rcases (f1.refs x o').1 ha with h | h
        · cases h
        · rcases (f2.refs x o').1 hb with h' | h'
          · obtain ⟨o'', h3, h4⟩ := List.mem_map.1 h'
            cases h4
            exact hp1 h.1
          · exact hseen x h.1 (f2.fresh x h'.1)
    · obtain ⟨k, h3, h4⟩ := f1.first _ rfl
      refine ⟨f2.mono _ _ (f1.mono _ _ hp), ⟨k, f2.mono _ _ h3, ?_⟩, (f1.told.mono f2.mono).append f2.told⟩
      cases es with
      | nil => rcases h4 with h4 | h4 <;> cases h4
      | cons x es => exact h4
    · have hq' : (.new q k ∈ es ∨ .old q k ∈ es) ∨ (.new q k ∈ es' ∨ .old q k ∈ es') := by
        simp only [List.mem_cons, List.mem_append, reduceCtorEq, false_or] at hq
        rcases hq with (h | h) | (h | h)
        · exact Or.inl (Or.inl h)
        · exact Or.inr (Or.inl h)
        · exact Or.inl (Or.inr h)
        · exact Or.inr (Or.inr h)
      rcases hq' with h | h
      · exact f2.mono _ _ (f1.named q k h)
      · exact f2.named q k h
    · rw [hnews, List.mem_append] at hx
      rcases hx with hx | hx
      · exact ⟨o, List.mem_cons_self, f1.reach x hx⟩
      · obtain ⟨o', h3, h4⟩ := f2.reach x hx
        exact ⟨o', List.mem_cons_of_mem _ h3, h4⟩

/-! ### The code does it -/

theorem run_add : ∀ (a b : Nat) (s : State), run g num (a + b) s = (run g num a s).bind (run g num b)
  | 0, b, s => by rw [Nat.zero_add]; rfl
  | a + 1, b, s => by
    rw [show a + 1 + b = a + b + 1 by omega]
    show (match step g num s with | none => none | some s => run g num (a + b) s) = (match step g num s with | none => none | some s => run g num a s).bind _
    cases step g num s with
    | none => rfl
    | some s => exact run_add a b s

theorem run_trans {a b : Nat} {s s' s'' : State} (h : run g num a s = some s') (h1 : run g num b s' = some s'') : run g num (a + b) s = some s'' := by
  rw [run_add, h]; exact h1

theorem run_one {s s' : State} (h : step g num s = some s') : run g num 1 s = some s' := by
  show (match step g num s with | none => none | some s => run g num 0 s) = _
  rw [h]; rfl

theorem walkNext_next (hs : ∀ p, (g.refs p).Pairwise (· < ·)) {p o : Nat} {pre os : List Nat} (h : g.refs p = pre ++ o :: os) :
    g.walkNext p (o + 1) = os.head? := by
  have hp := hs p
  unfold Graph.walkNext
  rw [h] at hp ⊢
  obtain ⟨_, h2, h3⟩ := List.pairwise_append.1 hp
  rw [List.find?_append, List.find?_eq_none.2, Option.none_or, List.find?_cons_of_neg (by simp)]
  · have h4 := (List.pairwise_cons.1 h2).1
    cases os with
    | nil => rfl
    | cons a os => rw [List.find?_cons_of_pos (by have := h4 a List.mem_cons_self; simp; omega)]; rfl
  · intro x hx
    have := h3 x hx o List.mem_cons_self
    simp
    omega

theorem walkNext_first {p : Nat} : g.walkNext p 0 = (g.refs p).head? := by
  unfold Graph.walkNext
  cases g.refs p with
  | nil => rfl
  | cons a l => rw [List.find?_cons_of_pos (by simp)]; rfl

/-- How many of these objects were not met. -/
def unseen (U : List Nat) (m : Nat → Option Nat) : Nat := (U.filter fun p => (m p).isNone).length

theorem unseen_mono {U : List Nat} {m m' : Nat → Option Nat} (h : ∀ x n, m x = some n → m' x = some n) : unseen U m' ≤ unseen U m := by
  unfold unseen
  induction U with
  | nil => exact Nat.le_refl _
  | cons a U ih =>
    rw [List.filter_cons, List.filter_cons]
    cases hm : m a with
    | none => cases m' a <;> simp <;> omega
    | some n => rw [h a n hm]; simpa using ih

theorem unseen_put {U : List Nat} {m : Nat → Option Nat} {p n : Nat} (hp : p ∈ U) (hm : m p = none) : unseen U (put m p n) < unseen U m := by
  unfold unseen
  induction U with
  | nil => cases hp
  | cons a U ih =>
    rw [List.filter_cons, List.filter_cons]
    have hle : unseen U (put m p n) ≤ unseen U m := unseen_mono fun x k hx => by
      unfold put
      by_cases hxp : x = p
      · rw [hxp, hm] at hx; cases hx
      · rw [if_neg hxp]; exact hx
    unfold unseen at hle
    by_cases ha : a = p
    · subst ha
      have : put m a n a = some n := by unfold put; rw [if_pos rfl]
      rw [this, hm]
      simp
      omega
    · have hpU : p ∈ U := by
        rcases List.mem_cons.1 hp with h | h
        · exact absurd h.symm ha
        · exact h
      have : put m p n a = m a := by unfold put; rw [if_neg ha]
      rw [this]
      have := ih hpU
      cases m a <;> simp <;> omega

theorem exec (hs : ∀ p, (g.refs p).Pairwise (· < ·)) {U : List Nat} (hU : ∀ p ∈ U, ∀ o ∈ g.refs p, g.target p o ∈ U) :
    ∀ (c : Nat) (p : Nat) (m : Nat → Option Nat) (t : Table) (b : Blocks) (l : List (Nat × Nat)) (h : List Event), p ∈ U → unseen U m ≤ c →
      Holds t m → Stk b l →
      ∃ es m' t' b' n, Walk g num (.visit p) h m es m' ∧ run g num n ⟨.visit p, t, b, h⟩ = some ⟨.pop, t', b', h ++ es⟩ ∧ Holds t' m' ∧ Stk b' l := by
  have hnd : ∀ p, (g.refs p).Nodup := fun p => (hs p).imp fun h => Nat.ne_of_lt h
  intro c
  induction c with
  | zero =>
    intro p m t b l h hp hc ht hb
    cases hm : m p with
    | none => have := unseen_put (n := 0) hp hm; omega
    | some n =>
      refine ⟨_, m, t, b, 1, .old hm, run_one ?_, ht, hb⟩
      have hn := ht.2 p
      rw [hm] at hn
      unfold Table.number at hn
      obtain ⟨i, h1, h2⟩ := Option.bind_eq_some_iff.1 hn
      obtain ⟨e, h3, h4⟩ := Option.map_eq_some_iff.1 h2
      show visitStep g num _ p = _
      unfold visitStep
      rw [h1]
      simp only [h3, h4]
  | succ c ih =>
    intro p m t b l h hp hc ht hb
    cases hm : m p with
    | some n =>
      refine ⟨_, m, t, b, 1, .old hm, run_one ?_, ht, hb⟩
      have hn := ht.2 p
      rw [hm] at hn
      unfold Table.number at hn
      obtain ⟨i, h1, h2⟩ := Option.bind_eq_some_iff.1 hn
      obtain ⟨e, h3, h4⟩ := Option.map_eq_some_iff.1 h2
      show visitStep g num _ p = _
      unfold visitStep
      rw [h1]
      simp only [h3, h4]
    | none =>
      -- the references of the object, one after the other
      have kids : ∀ (os pre : List Nat) (o : Nat) (m : Nat → Option Nat) (t : Table) (b : Blocks) (h : List Event) (n : Nat), g.refs p = pre ++ o :: os →
          m p = some n → unseen U m ≤ c → Holds t m → Stk b l →
          ∃ es m' t' b' k, Walk g num (.kids p n (o :: os)) h m es m' ∧ run g num k ⟨.children p o, t, b, h⟩ = some ⟨.pop, t', b', h ++ es⟩ ∧
            Holds t' m' ∧ Stk b' l := by
        intro os
        induction os with
        | nil =>
          intro pre o m t b h n hr hm hc ht hb
          obtain ⟨es, m1, t1, b1, k, w1, w2, w3, w4⟩ := ih (g.target p o) m t (push b (p, o)) ((p, o) :: l) (h ++ [.push p n o])
            (hU p hp o (by rw [hr]; simp)) hc ht (hb.push _)
          obtain ⟨b2, b3, b4⟩ := w4.pop_cons
          refine ⟨_, m1, t1, b2, 1 + k + 1, .kid w1 .last, run_trans (run_trans (run_one ?_) w2) (run_one ?_), w3, b4⟩
          · simp only [step, ht.2 p, hm]
          · simp only [step, b3, walkNext_next hs hr, List.head?_nil]
            simp
        | cons o' os ihk =>
          intro pre o m t b h n hr hm hc ht hb
          obtain ⟨es, m1, t1, b1, k, w1, w2, w3, w4⟩ := ih (g.target p o) m t (push b (p, o)) ((p, o) :: l) (h ++ [.push p n o])
            (hU p hp o (by rw [hr]; simp)) hc ht (hb.push _)
          obtain ⟨b2, b3, b4⟩ := w4.pop_cons
          have f := walk_facts hnd w1 trivial
          obtain ⟨es', m2, t2, b5, k', v1, v2, v3, v4⟩ := ihk (pre ++ [o]) o' m1 t1 b2 (h ++ [.push p n o] ++ es ++ [.pop]) n (by rw [hr]; simp)
            (f.mono p n hm) (Nat.le_trans (unseen_mono f.mono) hc) w3 b4
          refine ⟨_, m2, t2, b5, 1 + k + 1 + k', .kid w1 v1, run_trans (run_trans (run_trans (run_one ?_) w2) (run_one ?_)) (v2.trans ?_), v3, v4⟩
          · simp only [step, ht.2 p, hm]
          · simp only [step, b3, walkNext_next hs hr, List.head?_cons]
          · simp
      have hadd := ht.add (p := p) (n := num h p) hm
      obtain ⟨t1, i, a1, a2⟩ := hadd
      have hfind : t.find p = none := by
        rcases ht.1.find p with ⟨i, e, h1, h2, h3⟩ | ⟨h1, _⟩
        · have := ht.2 p
          rw [hm] at this
          unfold Table.number at this
          rw [h1] at this
          simp [h2] at this
        · exact h1
      have hc' : unseen U (put m p (num h p)) ≤ c := by have := unseen_put (n := num h p) hp hm; omega
      cases hr : g.refs p with
      | nil =>
        refine ⟨_, _, _, b, 1, .new hm (by rw [hr]; exact .last), run_one ?_, a2, hb⟩
        show visitStep g num _ p = _
        unfold visitStep
        rw [hfind]
        simp only [a1, walkNext_first, hr, List.head?_nil]
      | cons o os =>
        obtain ⟨es, m', t', b', k, w1, w2, w3, w4⟩ := kids os [] o (put m p (num h p)) _ b (h ++ [.new p (num h p)]) (num h p) hr
          (by unfold put; rw [if_pos rfl]) hc' a2 hb
        refine ⟨_, m', t', b', 1 + k, .new hm (by rw [hr]; exact w1), run_trans (run_one ?_) (w2.trans ?_), w3, w4⟩
        · show visitStep g num _ p = _
          unfold visitStep
          rw [hfind]
          simp only [a1, walkNext_first, hr, List.head?_cons]
        · simp

/-! ### From the roots -/

/-- The traversal from each of the roots. -/
inductive Walks (g : Graph) (num : List Event → Nat → Nat) : List Nat → List Event → (Nat → Option Nat) → List Event → (Nat → Option Nat) → Prop where
  | nil {h : List Event} {m : Nat → Option Nat} : Walks g num [] h m h m
  | cons {h es h' : List Event} {m m1 m' : Nat → Option Nat} {r : Nat} {rs : List Nat} (h1 : Walk g num (.visit r) (h ++ [.root]) m es m1)
      (h2 : Walks g num rs (h ++ [.root] ++ es) m1 h' m') : Walks g num (r :: rs) h m h' m'

/-- Everything about all that was told so far. -/
structure Whole (g : Graph) (roots : List Nat) (m : Nat → Option Nat) (es : List Event) : Prop where
  seen : ∀ x, m x ≠ none ↔ x ∈ news es
  nodup : (news es).Nodup
  refs : ∀ x o, (x, o) ∈ pushes es ↔ x ∈ news es ∧ o ∈ g.refs x
  once : (pushes es).Nodup
  told : Told g m es
  named : Named m es
  reach : ∀ x ∈ news es, x = 0 ∨ ∃ r ∈ roots, Reach g r x
  started : ∀ r ∈ roots, m r ≠ none

theorem Whole.walk (hnd : ∀ p, (g.refs p).Nodup) {done : List Nat} {r : Nat} {m m' : Nat → Option Nat} {h es : List Event} (hw : Whole g done m h)
    (w : Walk g num (.visit r) (h ++ [.root]) m es m') : Whole g (done ++ [r]) m' (h ++ [.root] ++ es) := by
  have f := walk_facts hnd w trivial
  have e1 : news (h ++ [.root] ++ es) = news h ++ news es := by rw [news_append, news_append]; simp [news]
  have e2 : pushes (h ++ [.root] ++ es) = pushes h ++ pushes es := by rw [pushes_append, pushes_append]; simp [pushes]
  have hdis : ∀ x, x ∈ news h → x ∉ news es := fun x h1 h2 => (hw.seen x).2 h1 (f.fresh x h2)
  refine ⟨fun x => ?_, ?_, fun x o => ?_, ?_, ?_, fun p n hp => ?_, fun x hx => ?_, fun q hq => ?_⟩
  · rw [e1, List.mem_append, f.seen, hw.seen]
  · rw [e1, List.nodup_append]
    refine ⟨hw.nodup, f.nodup, fun a ha b hb e => ?_⟩
    subst e
    exact hdis a ha hb
  · rw [e2, e1, List.mem_append, List.mem_append, hw.refs, f.refs]
    constructor
    · rintro (h | h | h)
      · exact ⟨Or.inl h.1, h.2⟩
      · cases h
      · exact ⟨Or.inr h.1, h.2⟩
    · rintro ⟨h | h, h'⟩
      · exact Or.inl ⟨h, h'⟩
      · exact Or.inr (Or.inr ⟨h, h'⟩)
  · rw [e2, List.nodup_append]
    refine ⟨hw.once, f.once, fun a ha b hb e => ?_⟩
    subst e
    obtain ⟨x, o⟩ := a
    rcases (f.refs x o).1 hb with h | h
    · cases h
    · exact hdis x ((hw.refs x o).1 ha).1 h.1
  · exact Told.append (Told.append (hw.told.mono f.mono) (show Told g m' [.root] from trivial)) f.told
  · simp only [List.mem_append, List.mem_singleton, reduceCtorEq, or_false] at hp
    rcases hp with (hp | hp) | (hp | hp)
    · exact f.mono _ _ (hw.named p n (Or.inl hp))
    · exact f.named p n (Or.inl hp)
    · exact f.mono _ _ (hw.named p n (Or.inr hp))
    · exact f.named p n (Or.inr hp)
  · rw [e1, List.mem_append] at hx
    rcases hx with hx | hx
    · rcases hw.reach x hx with h | ⟨r', h1, h2⟩
      · exact Or.inl h
      · exact Or.inr ⟨r', List.mem_append_left _ h1, h2⟩
    · exact Or.inr ⟨r, by simp, f.reach x hx⟩
  · rcases List.mem_append.1 hq with hq | hq
    · intro hn
      cases hm : m q with
      | none => exact hw.started q hq hm
      | some k => rw [f.mono q k hm] at hn; cases hn
    · rw [List.mem_singleton] at hq
      obtain ⟨k, h1, _⟩ := f.first r rfl
      rw [hq, h1]; nofun

theorem Told.mem {m : Nat → Option Nat} : ∀ {es : List Event}, Told g m es → ∀ {p o : Nat}, (p, o) ∈ pushes es → m (g.target p o) ≠ none
  | .push p n o :: es, ⟨_, ⟨k, h2, _⟩, h4⟩, p', o', h => by
    rcases List.mem_cons.1 (show (p', o') ∈ (p, o) :: pushes es from h) with h | h
    · cases h; rw [h2]; nofun
    · exact Told.mem h4 h
  | .root :: es, h1, _, _, h => Told.mem (es := es) h1 h
  | .new _ _ :: es, h1, _, _, h => Told.mem (es := es) h1 h
  | .old _ _ :: es, h1, _, _, h => Told.mem (es := es) h1 h
  | .pop :: es, h1, _, _, h => Told.mem (es := es) h1 h

theorem Whole.all {roots : List Nat} {m : Nat → Option Nat} {es : List Event} (h : Whole g roots m es) {r x : Nat} (hr : r ∈ roots) (hx : Reach g r x) :
    x ∈ news es := by
  induction hx with
  | refl => exact (h.seen r).1 (h.started r hr)
  | step _ h1 ih => exact (h.seen _).1 (h.told.mem ((h.refs _ _).2 ⟨ih, h1⟩))

theorem run_done : ∀ (n : Nat) (t : Table) (b : Blocks) (h : List Event), run g num n ⟨.done, t, b, h⟩ = some ⟨.done, t, b, h⟩
  | 0, _, _, _ => rfl
  | n + 1, t, b, h => run_done n t b h

/-- The walks of the code are the traversal. -/
theorem exec_walks (hs : ∀ p, (g.refs p).Pairwise (· < ·)) {U : List Nat} (hU : ∀ p ∈ U, ∀ o ∈ g.refs p, g.target p o ∈ U) :
    ∀ (rs : List Nat) (m : Nat → Option Nat) (t : Table) (b : Blocks) (h : List Event), (∀ r ∈ rs, r ∈ U) → Holds t m → Stk b [] →
      ∃ N h' m' t' b', Walks g num rs h m h' m' ∧ Holds t' m' ∧ Stk b' [] ∧ (∀ x k, m x = some k → m' x = some k) ∧
        ∀ n, N ≤ n → ∃ xs, walks g num n ⟨.done, t, b, h⟩ rs = some (⟨.done, t', b', h'⟩, xs) ∧ rs.map m' = xs.map some
  | [], m, t, b, h, _, ht, hb => ⟨0, h, m, t, b, .nil, ht, hb, fun _ _ h => h, fun _ _ => ⟨[], rfl, rfl⟩⟩
  | r :: rs, m, t, b, h, hr, ht, hb => by
    have hnd : ∀ p, (g.refs p).Nodup := fun p => (hs p).imp fun h => Nat.ne_of_lt h
    obtain ⟨es, m1, t1, b1, k, w1, w2, w3, w4⟩ := exec (num := num) hs hU _ r m t b [] (h ++ [.root]) (hr r List.mem_cons_self) (Nat.le_refl _) ht hb
    obtain ⟨N, h', m', t', b', v1, v2, v3, v4, v5⟩ := exec_walks hs hU rs m1 t1 b1 (h ++ [.root] ++ es) (fun x hx => hr x (List.mem_cons_of_mem _ hx)) w3 w4
    have f := walk_facts hnd w1 trivial
    refine ⟨max N (k + 1), h', m', t', b', .cons w1 v1, v2, v3, fun x n hx => v4 x n (f.mono x n hx), fun n hn => ?_⟩
    obtain ⟨xs, x1, x2⟩ := v5 n (by omega)
    obtain ⟨y, y1, _⟩ := f.first r rfl
    refine ⟨y :: xs, ?_, ?_⟩
    · have hrun : run g num n (startAt ⟨.done, t, b, h⟩ r) = some ⟨.done, t1, b1, h ++ [.root] ++ es⟩ := by
        have hpop : run g num 1 ⟨.pop, t1, b1, h ++ [.root] ++ es⟩ = some ⟨.done, t1, b1, h ++ [.root] ++ es⟩ := run_one (by simp only [step, w4.pop_nil])
        have := run_trans (run_trans w2 hpop) (run_done (g := g) (num := num) (n - (k + 1)) _ _ _)
        rw [show k + 1 + (n - (k + 1)) = n by omega] at this
        exact this
      unfold walks
      rw [hrun]
      simp only [w3.2 r, y1, x1]
    · rw [List.map_cons, List.map_cons, x2, v4 r y y1]

theorem Whole.walks (hnd : ∀ p, (g.refs p).Nodup) {rs : List Nat} {m m' : Nat → Option Nat} {h h' : List Event} (w : Walks g num rs h m h' m') :
    ∀ {done : List Nat}, Whole g done m h → Whole g (done ++ rs) m' h' := by
  induction w with
  | nil => intro done hw; rw [List.append_nil]; exact hw
  | cons w1 _ ih => intro done hw; have := ih (hw.walk hnd w1); rw [List.append_assoc] at this; exact this

theorem initial_ok : ∃ t, initial num = some ⟨.done, t, [], [.new 0 (num [] 0)]⟩ ∧ Holds t (put (fun _ => none) 0 (num [] 0)) := by
  obtain ⟨t, i, h1, h2⟩ := Holds.first 0 (num [] 0)
  refine ⟨_, ?_, h2⟩
  unfold initial
  rw [h1]

theorem initial_whole (h0 : g.refs 0 = []) : Whole g [] (put (fun _ => none) 0 (num [] 0)) [.new 0 (num [] 0)] := by
  refine ⟨fun x => ?_, by simp [news], fun x o => ?_, by simp [pushes], trivial, fun p n hp => ?_, fun x hx => Or.inl (by simpa [news] using hx), nofun⟩
  · unfold put
    by_cases hx : x = 0
    · rw [if_pos hx]; simp [news, hx]
    · rw [if_neg hx]; simp [news, hx]
  · constructor
    · intro h; cases h
    · rintro ⟨h1, h2⟩
      have : x = 0 := by simpa [news] using h1
      rw [this, h0] at h2; cases h2
  · simp at hp
    rw [hp.1, hp.2]; unfold put; rw [if_pos rfl]

/-- The walker that is made, taken from each of the roots: the traversal, for every number of steps that is large enough. -/
theorem walks_walk (hs : ∀ p, (g.refs p).Pairwise (· < ·)) (num : List Event → Nat → Nat) {U roots : List Nat} (hr : ∀ r ∈ roots, r ∈ U)
    (hU : ∀ p ∈ U, ∀ o ∈ g.refs p, g.target p o ∈ U) :
    ∃ N s m, Walks g num roots [.new 0 (num [] 0)] (put (fun _ => none) 0 (num [] 0)) s.events m ∧ (∀ p, s.objects.number p = m p) ∧
      ∀ n, N ≤ n → ∃ s0 xs, initial num = some s0 ∧ walks g num n s0 roots = some (s, xs) ∧ roots.map m = xs.map some := by
  obtain ⟨t, h1, h2⟩ := initial_ok (num := num)
  obtain ⟨N, h', m', t', b', v1, v2, v3, v4, v5⟩ := exec_walks (num := num) hs hU roots _ t [] [.new 0 (num [] 0)] hr h2 ⟨rfl, nofun⟩
  refine ⟨N, ⟨.done, t', b', h'⟩, m', v1, v2.2, fun n hn => ?_⟩
  obtain ⟨xs, x1, x2⟩ := v5 n hn
  exact ⟨_, xs, h1, x1, x2⟩

/-- **C98.** Walking from some objects of a finite heap ends; the visitor is told each object that can be reached from them (and null) exactly once
as a new one, and each of its references exactly once, with the number that the visitor gave to the object, followed by the object that the reference
leads to with its number; the walks answer the numbers of the roots, and afterwards the walker knows the numbers of these objects and of no others. -/
theorem walks_ok (hs : ∀ p, (g.refs p).Pairwise (· < ·)) (h0 : g.refs 0 = []) (num : List Event → Nat → Nat) {U roots : List Nat} (hr : ∀ r ∈ roots, r ∈ U)
    (hU : ∀ p ∈ U, ∀ o ∈ g.refs p, g.target p o ∈ U) :
    ∃ N, ∀ n, N ≤ n → ∃ s0 s xs, initial num = some s0 ∧ walks g num n s0 roots = some (s, xs) ∧
      (news s.events).Nodup ∧ (∀ p, p ∈ news s.events ↔ p = 0 ∨ ∃ r ∈ roots, Reach g r p) ∧
      (pushes s.events).Nodup ∧ (∀ p o, (p, o) ∈ pushes s.events ↔ p ∈ news s.events ∧ o ∈ g.refs p) ∧
      Told g s.objects.number s.events ∧ Named s.objects.number s.events ∧
      roots.map s.objects.number = xs.map some ∧ ∀ p, s.objects.number p ≠ none ↔ p ∈ news s.events := by
  have hnd : ∀ p, (g.refs p).Nodup := fun p => (hs p).imp fun h => Nat.ne_of_lt h
  obtain ⟨N, s, m, w, hm, h⟩ := walks_walk hs num hr hU
  have hm' : s.objects.number = m := funext hm
  have hw := Whole.walks hnd w (initial_whole h0)
  rw [List.nil_append] at hw
  refine ⟨N, fun n hn => ?_⟩
  obtain ⟨s0, xs, h1, h2, h3⟩ := h n hn
  refine ⟨s0, s, xs, h1, h2, hw.nodup, fun p => ⟨hw.reach p, ?_⟩, hw.once, hw.refs, by rw [hm']; exact hw.told, by rw [hm']; exact hw.named, by rw [hm']; exact h3,
    fun p => by rw [hm]; exact hw.seen p⟩
  rintro (h | ⟨r, h4, h5⟩)
  · rw [h]
    refine (hw.seen 0).1 ?_
    have : ∀ {rs : List Nat} {h h' : List Event} {m m' : Nat → Option Nat}, Walks g num rs h m h' m' → m 0 ≠ none → m' 0 ≠ none := by
      intro rs h h' m m' w
      induction w with
      | nil => exact fun h => h
      | cons w1 _ ih => exact fun h => ih (((walk_facts hnd w1 trivial).seen 0).2 (Or.inl h))
    exact this w (by unfold put; rw [if_pos rfl]; nofun)
  · exact hw.all h4 h5

end

end Avian.HeapWalk
