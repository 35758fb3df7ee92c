import Verif.Props.TreeSet

/-
C83: sorted maps.
-/
namespace Avian.PersistentSet

variable {α : Type}

theorem find?_congr {p q : α → Bool} {l : List α} (h : ∀ x ∈ l, p x = q x) : l.find? p = l.find? q := by
  induction l with
  | nil => rfl
  | cons x r ih =>
    simp only [List.find?_cons]
    rw [h x (by simp), ih (fun y hy => h y (by simp [hy]))]

theorem find?_filter_of {p q : α → Bool} {l : List α} (h : ∀ x ∈ l, q x = true → p x = true) :
    (l.filter p).find? q = l.find? q := by
  rw [List.find?_filter]
  apply find?_congr
  intro x hx
  have := h x hx
  cases hq : q x <;> cases hp : p x <;> simp_all

theorem find?_filter_none {p q : α → Bool} {l : List α} (h : ∀ x ∈ l, q x = true → p x = false) :
    (l.filter p).find? q = none := by
  rw [List.find?_eq_none]
  intro x hx hq
  rw [List.mem_filter] at hx
  rw [h x hx.1 hq] at hx
  cases hx.2

/-- What is found after putting a value. -/
theorem find_put {cmp : α → α → Int} (o : Order cmp) (l : List α) (v w : α) :
    findSpec cmp w (putSpec cmp v l) = if cmp w v = 0 then some v else findSpec cmp w l := by
  unfold putSpec findSpec
  rw [List.find?_append]
  -- an element equal to `w` is on the side of `w`
  have side : ∀ x, cmp w x = 0 → (0 < cmp v x ↔ 0 < cmp v w) ∧ (cmp v x < 0 ↔ cmp v w < 0) := by
    intro x hx
    have hx' := o.eq_symm hx
    have f1 := o.flip v x
    have f2 := o.flip v w
    have t1 := o.trans v x w
    have t2 := o.trans v w x
    have t3 := o.trans w x v
    have t4 := o.trans x w v
    have f3 := o.flip x v
    have f4 := o.flip w v
    omega
  by_cases hwv : cmp w v = 0
  · rw [if_pos hwv]
    have hv := o.eq_symm hwv
    rw [find?_filter_none (by
      intro x _ hx
      have := side x (by simpa using hx)
      simp; omega)]
    simp [hwv]
  · rw [if_neg hwv]
    have hvw : cmp v w ≠ 0 := fun h => hwv (o.eq_symm h)
    by_cases hlt : 0 < cmp v w
    · rw [find?_filter_of (by
        intro x _ hx
        have := side x (by simpa using hx)
        simp; omega)]
      rw [List.find?_cons]
      simp only [hwv, decide_false]
      rw [find?_filter_none (by
        intro x _ hx
        have := side x (by simpa using hx)
        simp; omega)]
      simp
    · rw [find?_filter_none (by
        intro x _ hx
        have := side x (by simpa using hx)
        simp; omega)]
      rw [List.find?_cons]
      simp only [hwv, decide_false]
      rw [find?_filter_of (by
        intro x _ hx
        have := side x (by simpa using hx)
        simp; omega)]
      simp

/-- What is found after removing a value. -/
theorem find_erase {cmp : α → α → Int} (o : Order cmp) (l : List α) (v w : α) :
    findSpec cmp w (eraseSpec cmp v l) = if cmp w v = 0 then none else findSpec cmp w l := by
  unfold eraseSpec findSpec
  have same : ∀ x, cmp w x = 0 → (cmp v x = 0 ↔ cmp w v = 0) := by
    intro x hx
    have f1 := o.flip v x
    have f3 := o.flip x v
    have f4 := o.flip w v
    have f5 := o.flip v w
    have f6 := o.flip w x
    have f7 := o.flip x w
    have t3 := o.trans w x v
    have t4 := o.trans x w v
    have t5 := o.trans v w x
    have t6 := o.trans v x w
    omega
  by_cases hwv : cmp w v = 0
  · rw [if_pos hwv]
    apply find?_filter_none
    intro x _ hx
    have := (same x (by simpa using hx)).2 hwv
    simp [this]
  · rw [if_neg hwv]
    apply find?_filter_of
    intro x _ hx
    have := same x (by simpa using hx)
    simp only [ne_eq, decide_not, Bool.not_eq_true', decide_eq_false_iff_not]
    omega

end Avian.PersistentSet

namespace Avian.TreeMap

open Avian.PersistentSet (PSet Exn Order Sorted putSpec eraseSpec findSpec Rep)

variable {K V : Type}

theorem byKey_order {cmp : K → K → Int} (o : Order cmp) : Order (byKey cmp : Entry K V → Entry K V → Int) :=
  ⟨fun a b => o.flip a.key b.key, fun a b c => o.trans a.key b.key c.key⟩

/-! ### Specification -/

/-- A map: for each key the value put last for a key equal to it. -/
abbrev Fn (K V : Type) := K → Option (Option V)

inductive Op (K V : Type) where
  | put (k : K) (v : Option V)
  | remove (k : K)
  | get (k : K)
  | containsKey (k : K)
  | clear

inductive Out (V : Type) where
  | value (v : Option V)
  | bool (b : Bool)
  | unit
  | thrown (e : Exn)
  deriving DecidableEq

def specStep (cmp : K → K → Int) (f : Fn K V) : Op K V → Fn K V × Out V
  | .put k v => ((fun x => if cmp x k = 0 then some v else f x), .value ((f k).bind id))
  | .remove k => ((fun x => if cmp x k = 0 then none else f x), .value ((f k).bind id))
  | .get k => (f, .value ((f k).bind id))
  | .containsKey k => (f, .bool (f k).isSome)
  | .clear => (fun _ => none, .unit)

/-- One operation of the model. -/
def step (cmp : K → K → Int) (m : PSet (Entry K V)) : Op K V → PSet (Entry K V) × Out V
  | .put k v => match put cmp m k v with | .ok r => (r.1, .value r.2) | .error e => (m, .thrown e)
  | .remove k => match remove cmp m k with | .ok r => (r.1, .value r.2) | .error e => (m, .thrown e)
  | .get k => (m, .value (get cmp m k))
  | .containsKey k => (m, .bool (containsKey cmp m k))
  | .clear => (PersistentSet.empty, .unit)

/-- The map with these entries, in the order of their keys. -/
structure MapRep (cmp : K → K → Int) (m : PSet (Entry K V)) (l : List (Entry K V)) (f : Fn K V) : Prop where
  rep : Rep (byKey cmp) m l
  fn : ∀ k, f k = (findSpec (byKey cmp) ⟨k, none⟩ l).map (·.value)

theorem find_key (cmp : K → K → Int) (l : List (Entry K V)) (k : K) (v : Option V) :
    findSpec (byKey cmp) ⟨k, v⟩ l = findSpec (byKey cmp) ⟨k, none⟩ l := rfl

theorem put_ok {cmp : K → K → Int} (o : Order cmp) {m : PSet (Entry K V)} {l : List (Entry K V)} {f : Fn K V} (h : MapRep cmp m l f)
    (k : K) (v : Option V) :
    ∃ m', put cmp m k v = .ok (m', (f k).bind id) ∧
      MapRep cmp m' (putSpec (byKey cmp) ⟨k, v⟩ l) (fun x => if cmp x k = 0 then some v else f x) := by
  obtain ⟨m', e, hr⟩ := TreeSet.addAndReplace_ok (byKey_order o) h.rep ⟨k, v⟩
  unfold put
  rw [e]
  refine ⟨m', ?_, hr, ?_⟩
  · simp only [Except.map]
    rw [find_key, h.fn k]
    cases findSpec (byKey cmp) ⟨k, none⟩ l <;> rfl
  · intro x
    rw [PersistentSet.find_put (byKey_order o)]
    show _ = (if cmp x k = 0 then _ else _ : Option (Entry K V)).map _
    split
    · rfl
    · exact h.fn x

theorem remove_ok {cmp : K → K → Int} (o : Order cmp) {m : PSet (Entry K V)} {l : List (Entry K V)} {f : Fn K V} (h : MapRep cmp m l f)
    (k : K) :
    ∃ m', remove cmp m k = .ok (m', (f k).bind id) ∧
      MapRep cmp m' (eraseSpec (byKey cmp) ⟨k, none⟩ l) (fun x => if cmp x k = 0 then none else f x) := by
  obtain ⟨m', e, hr⟩ := TreeSet.removeAndReturn_ok (byKey_order o) h.rep ⟨k, none⟩
  unfold remove
  rw [e]
  refine ⟨m', ?_, hr, ?_⟩
  · simp only [Except.map]
    rw [h.fn k]
    cases findSpec (byKey cmp) ⟨k, none⟩ l <;> rfl
  · intro x
    rw [PersistentSet.find_erase (byKey_order o)]
    show _ = (if cmp x k = 0 then _ else _ : Option (Entry K V)).map _
    split
    · rfl
    · exact h.fn x

theorem get_ok {cmp : K → K → Int} (o : Order cmp) {m : PSet (Entry K V)} {l : List (Entry K V)} {f : Fn K V} (h : MapRep cmp m l f)
    (k : K) : get cmp m k = (f k).bind id := by
  unfold get
  rw [TreeSet.find_ok (byKey_order o) h.rep, h.fn k]
  cases findSpec (byKey cmp) ⟨k, none⟩ l <;> rfl

theorem containsKey_ok {cmp : K → K → Int} (o : Order cmp) {m : PSet (Entry K V)} {l : List (Entry K V)} {f : Fn K V} (h : MapRep cmp m l f)
    (k : K) : containsKey cmp m k = (f k).isSome := by
  rw [h.fn k, Option.isSome_map, PersistentSet.find_spec (byKey_order o) h.rep]
  unfold containsKey TreeSet.contains
  cases (PersistentSet.find (byKey cmp) m ⟨k, none⟩).fresh <;> rfl

theorem step_ok {cmp : K → K → Int} (o : Order cmp) {m : PSet (Entry K V)} {l : List (Entry K V)} {f : Fn K V} (h : MapRep cmp m l f)
    (op : Op K V) :
    (∃ l', MapRep cmp (step cmp m op).1 l' (specStep cmp f op).1) ∧ (step cmp m op).2 = (specStep cmp f op).2 := by
  cases op with
  | put k v =>
    obtain ⟨m', e, hr⟩ := put_ok o h k v
    simp only [step, specStep, e]
    exact ⟨⟨_, hr⟩, trivial⟩
  | remove k =>
    obtain ⟨m', e, hr⟩ := remove_ok o h k
    simp only [step, specStep, e]
    exact ⟨⟨_, hr⟩, trivial⟩
  | get k => exact ⟨⟨l, h⟩, by simp only [step, specStep, get_ok o h k]⟩
  | containsKey k => exact ⟨⟨l, h⟩, by simp only [step, specStep, containsKey_ok o h k]⟩
  | clear => exact ⟨⟨[], PersistentSet.empty_rep _, fun _ => rfl⟩, rfl⟩

/-- The results of operations one after the other. -/
def outs {S : Type} (f : S → Op K V → S × Out V) : S → List (Op K V) → List (Out V)
  | _, [] => []
  | s, op :: ops => (f s op).2 :: outs f (f s op).1 ops

/-- All results of any operations on a new map are those of a map. -/
theorem run_ok {cmp : K → K → Int} (o : Order cmp) (ops : List (Op K V)) :
    outs (step cmp) PersistentSet.empty ops = outs (specStep cmp) (fun _ => none) ops := by
  have key : ∀ (ops : List (Op K V)) (m : PSet (Entry K V)) (l : List (Entry K V)) (f : Fn K V), MapRep cmp m l f →
      outs (step cmp) m ops = outs (specStep cmp) f ops := by
    intro ops
    induction ops with
    | nil => intro m l f _; rfl
    | cons op ops ih =>
      intro m l f h
      obtain ⟨⟨l', h1⟩, h2⟩ := step_ok o h op
      rw [outs, outs, h2, ih _ _ _ h1]
  exact key ops _ [] _ ⟨PersistentSet.empty_rep _, fun _ => rfl⟩

example : outs (step PersistentSet.intCmp) PersistentSet.empty
    [.put 3 (some 'c'), .put 1 (some 'a'), .put 3 none, .get 3, .containsKey 3, .remove 3, .containsKey 3, .get 1] =
    [.value none, .value none, .value (some 'c'), .value none, .bool true, .value none, .bool false, .value (some 'a')] := by
  decide +kernel

/-! ### Order of the keys -/

/-- The entries come in the increasing order of their keys, as many as `size` says. -/
theorem order_ok {cmp : K → K → Int} {m : PSet (Entry K V)} {l : List (Entry K V)} {f : Fn K V} (h : MapRep cmp m l f) :
    PersistentSet.walk (l.length + 1) (PersistentSet.first m) = l ∧ m.size = l.length ∧
    (l.map (·.key)).Pairwise (fun a b => cmp a b < 0) := by
  refine ⟨PersistentSet.iterate_ok h.rep, h.rep.size, ?_⟩
  rw [List.pairwise_map]; exact h.rep.sorted

/-- `firstKey` and `lastKey` are the least and the greatest key. -/
theorem ends_ok {cmp : K → K → Int} (o : Order cmp) {m : PSet (Entry K V)} {l : List (Entry K V)} {f : Fn K V} (h : MapRep cmp m l f)
    (hl : l ≠ []) :
    ∃ a b, firstKey m = .ok a ∧ lastKey m = .ok b ∧ (f a).isSome ∧ (f b).isSome ∧
      ∀ k, (f k).isSome → cmp a k ≤ 0 ∧ cmp k b ≤ 0 := by
  have hs := h.rep.sorted
  have hrefl : ∀ k, cmp k k = 0 := fun k => by have := o.flip k k; omega
  have hmem : ∀ k, (f k).isSome ↔ ∃ e ∈ l, cmp k e.key = 0 := by
    intro k
    rw [h.fn k, Option.isSome_map]
    unfold findSpec
    rw [List.find?_isSome]
    exact ⟨fun ⟨e, he, hd⟩ => ⟨e, he, of_decide_eq_true hd⟩, fun ⟨e, he, hd⟩ => ⟨e, he, decide_eq_true hd⟩⟩
  obtain ⟨e1, e2⟩ := TreeSet.ends_ok h.rep
  unfold firstKey lastKey
  rw [e1, e2]
  obtain ⟨x, r, hx⟩ : ∃ x r, l = x :: r := by
    cases l with
    | nil => exact absurd rfl hl
    | cons x r => exact ⟨x, r, rfl⟩
  obtain ⟨q, y, hy⟩ : ∃ q y, l = q ++ [y] := ⟨l.dropLast, l.getLast hl, (List.dropLast_concat_getLast hl).symm⟩
  have h1 : l.head? = some x := by rw [hx]; rfl
  have h2 : l.getLast? = some y := by rw [hy]; simp
  rw [h1, h2]
  refine ⟨x.key, y.key, rfl, rfl, (hmem _).2 ⟨x, by rw [hx]; simp, hrefl _⟩, (hmem _).2 ⟨y, by rw [hy]; simp, hrefl _⟩, ?_⟩
  intro k hk
  obtain ⟨e, he, hke⟩ := (hmem k).1 hk
  have hek := o.eq_symm hke
  constructor
  · have : cmp x.key e.key ≤ 0 := by
      rw [hx] at he hs
      rcases List.mem_cons.1 he with rfl | he
      · rw [hrefl]; omega
      · have := (List.pairwise_cons.1 hs).1 e he
        unfold byKey at this
        omega
    exact o.trans _ _ _ this (by omega)
  · have : cmp e.key y.key ≤ 0 := by
      rw [hy] at he hs
      rcases List.mem_append.1 he with he | he
      · have := (List.pairwise_append.1 hs).2.2 e he y (by simp)
        unfold byKey at this
        omega
      · rw [List.mem_singleton.1 he, hrefl]; omega
    exact o.trans _ _ _ (by omega) this

/-- The maps that come up: after any operations there are such entries. -/
theorem reach_ok {cmp : K → K → Int} (o : Order cmp) (ops : List (Op K V)) :
    ∃ l, MapRep cmp (ops.foldl (fun m op => (step cmp m op).1) PersistentSet.empty) l
      (ops.foldl (fun f op => (specStep cmp f op).1) (fun _ => none)) := by
  have key : ∀ (ops : List (Op K V)) (m : PSet (Entry K V)) (l : List (Entry K V)) (f : Fn K V), MapRep cmp m l f →
      ∃ l, MapRep cmp (ops.foldl (fun m op => (step cmp m op).1) m) l (ops.foldl (fun f op => (specStep cmp f op).1) f) := by
    intro ops
    induction ops with
    | nil => intro m l f h; exact ⟨l, h⟩
    | cons op ops ih =>
      intro m l f h
      obtain ⟨⟨l', h1⟩, _⟩ := step_ok o h op
      exact ih _ _ _ h1
  exact key ops _ [] _ ⟨PersistentSet.empty_rep _, fun _ => rfl⟩

/-- A map for the examples. -/
def demo : PSet (Entry Int Char) :=
  [Op.put 5 (some 'e'), .put 2 (some 'b'), .put 9 none, .put 2 (some 'x')].foldl (fun m op => (step PersistentSet.intCmp m op).1) PersistentSet.empty

example : ∃ l f, MapRep PersistentSet.intCmp demo l f ∧ f 2 = some (some 'x') ∧ f 9 = some none ∧ f 3 = none := by
  obtain ⟨l, h⟩ := reach_ok PersistentSet.intCmp_order (V := Char)
    [Op.put 5 (some 'e'), .put 2 (some 'b'), .put 9 none, .put 2 (some 'x')]
  exact ⟨l, _, h, by decide +kernel, by decide +kernel, by decide +kernel⟩
example : firstKey demo = .ok 2 ∧ lastKey demo = .ok 9 ∧ demo.root.inorder.map (·.key) = [2, 5, 9] := by decide +kernel

/-! ### Deviations -/

/-- `firstEntry` and `lastEntry` of an empty map throw `NoSuchElementException` where null is due. -/
theorem entry_of_empty {cmp : K → K → Int} {m : PSet (Entry K V)} {f : Fn K V} (h : MapRep cmp m [] f) :
    firstEntry m = .error .noSuchElement ∧ lastEntry m = .error .noSuchElement :=
  ⟨(TreeSet.ends_ok h.rep).1, (TreeSet.ends_ok h.rep).2⟩

example : firstEntry (PersistentSet.empty : PSet (Entry Int Char)) = .error .noSuchElement := by decide +kernel

/-- `keySet().add` says the opposite of what it did, and a key that was there loses its value. -/
theorem keyAdd_wrong {cmp : K → K → Int} (o : Order cmp) {m : PSet (Entry K V)} {l : List (Entry K V)} {f : Fn K V} (h : MapRep cmp m l f)
    (k : K) : ∃ m', keyAdd cmp m k = .ok (m', (f k).isSome) ∧ get cmp m' k = none ∧ containsKey cmp m' k = true := by
  obtain ⟨m', e, hr⟩ := TreeSet.addAndReplace_ok (byKey_order o) h.rep ⟨k, none⟩
  have hrefl : cmp k k = 0 := by have := o.flip k k; omega
  have hm : MapRep cmp m' (putSpec (byKey cmp) ⟨k, none⟩ l) (fun x => if cmp x k = 0 then some none else f x) := by
    refine ⟨hr, ?_⟩
    intro x
    rw [PersistentSet.find_put (byKey_order o)]
    show _ = (if cmp x k = 0 then _ else _ : Option (Entry K V)).map _
    split
    · rfl
    · exact h.fn x
  unfold keyAdd
  rw [e]
  refine ⟨m', ?_, ?_, ?_⟩
  · simp only [Except.map]
    rw [h.fn k, Option.isSome_map]
  · rw [get_ok o hm k, if_pos hrefl]; rfl
  · rw [containsKey_ok o hm k, if_pos hrefl]; rfl

example : (keyAdd PersistentSet.intCmp demo 5).map (·.2) = .ok true := by decide +kernel

/-- Removing through the set of keys says whether the key was there. -/
theorem keyRemove_ok {cmp : K → K → Int} (o : Order cmp) {m : PSet (Entry K V)} {l : List (Entry K V)} {f : Fn K V} (h : MapRep cmp m l f)
    (k : K) : ∃ m', keyRemove cmp m k = .ok (m', (f k).isSome) ∧
      MapRep cmp m' (eraseSpec (byKey cmp) ⟨k, none⟩ l) (fun x => if cmp x k = 0 then none else f x) := by
  obtain ⟨m', e, hr⟩ := TreeSet.removeAndReturn_ok (byKey_order o) h.rep ⟨k, none⟩
  unfold keyRemove
  rw [e]
  refine ⟨m', ?_, hr, ?_⟩
  · simp only [Except.map]
    rw [h.fn k, Option.isSome_map]
  · intro x
    rw [PersistentSet.find_erase (byKey_order o)]
    show _ = (if cmp x k = 0 then _ else _ : Option (Entry K V)).map _
    split
    · rfl
    · exact h.fn x

/-- `put` of a key equal to one that is there also replaces the key. -/
theorem put_replaces_key {cmp : K → K → Int} (o : Order cmp) {m : PSet (Entry K V)} {l : List (Entry K V)} {f : Fn K V} (h : MapRep cmp m l f)
    (k : K) (v : Option V) : ∃ m' r, put cmp m k v = .ok (m', r) ∧ ⟨k, v⟩ ∈ m'.root.inorder := by
  obtain ⟨m', e, hr⟩ := put_ok o h k v
  exact ⟨m', _, e, by rw [hr.rep.elems]; unfold putSpec; simp⟩

end Avian.TreeMap
