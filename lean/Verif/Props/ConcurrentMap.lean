import Verif.Lib.ConcurrentMap
import Verif.Props.PersistentSet
import Verif.Props.TreeMap

/-
**C93.** Concurrent hash maps.

The specification is a function from keys to values, the operations of `java.util.concurrent.ConcurrentMap` on it, and for several
threads an order in which the operations could have been done one after the other.
-/
namespace Avian.ConcurrentMap

open Avian.PersistentSet (PSet Path Exn Order Sorted putSpec eraseSpec findSpec Rep T find_spec find_hit)

variable {K V : Type} [DecidableEq K] [DecidableEq V]

/-! ### Specification -/

/-- A map. -/
abbrev Map (K V : Type) := K → Option V

def Map.set (m : Map K V) (k : K) (v : Option V) : Map K V := fun k' => if k' = k then v else m k'

/-- `put`, `putIfAbsent`, `replace` of two and of three arguments: the new map, and the value before. -/
def putMap (m : Map K V) (k : K) (v : V) : PutCondition V → Map K V
  | .always => m.set k (some v)
  | .ifAbsent => if m k = none then m.set k (some v) else m
  | .ifPresent => if m k = none then m else m.set k (some v)
  | .ifEqual old => if m k = some old then m.set k (some v) else m

/-- `remove` of one and of two arguments. -/
def removeMap (m : Map K V) (k : K) : RemoveCondition V → Map K V
  | .always => m.set k none
  | .ifEqual old => if m k = some old then m.set k none else m

/-- These are the entries of a map, once each. -/
structure Entries (m : Map K V) (es : List (K × V)) : Prop where
  nodup : (es.map (·.1)).Nodup
  mem : ∀ k v, (k, v) ∈ es ↔ m k = some v

/-- Hash codes that differ by less than 2^31. -/
def Window (hash : K → BitVec 32) : Prop := ∃ a : Int, ∀ k, a ≤ (hash k).toInt ∧ (hash k).toInt < a + 2 ^ 31

/-- No other key of the map has the hash code. -/
def Alone (hash : K → BitVec 32) (m : Map K V) (k : K) : Prop := ∀ k', m k' ≠ none → hash k' = hash k → k' = k

/-! ### Comparators -/

/-- The comparator without overflow. -/
def exact (a b : Node K V) : Int := a.key.toInt - b.key.toInt

omit [DecidableEq K] [DecidableEq V] in
theorem exact_order : Order (exact : Node K V → Node K V → Int) := by
  constructor
  · intro a b; unfold exact; omega
  · intro a b c; unfold exact; omega

omit [DecidableEq K] [DecidableEq V] in
theorem exact_zero (a b : Node K V) : exact a b = 0 ↔ a.key = b.key := by
  unfold exact
  constructor
  · intro h
    exact BitVec.eq_of_toInt_eq (by omega)
  · intro h; rw [h]; omega

omit [DecidableEq K] [DecidableEq V] in
theorem compare_exact {x : Int} {a b : Node K V} (ha : x ≤ a.key.toInt ∧ a.key.toInt < x + 2 ^ 31)
    (hb : x ≤ b.key.toInt ∧ b.key.toInt < x + 2 ^ 31) : compareTo a b = exact a b := by
  unfold compareTo exact
  rw [BitVec.toInt_sub (x := a.key) (y := b.key), Int.bmod_def]
  omega

theorem findLoop_congr {α : Type} {c1 c2 : α → α → Int} (v : α) (size : Int) (t : T α) (fs : List (PersistentSet.Frame α))
    (h : ∀ x ∈ t.inorder, c1 v x = c2 v x) : PersistentSet.findLoop c1 v size t fs = PersistentSet.findLoop c2 v size t fs := by
  induction t generalizing fs with
  | leaf => rfl
  | node red l x r ihl ihr =>
    simp only [T.inorder, List.mem_append, List.mem_cons] at h
    simp only [PersistentSet.findLoop, h x (by simp)]
    rw [ihl _ (fun y hy => h y (by simp [hy])), ihr _ (fun y hy => h y (by simp [hy]))]

/-- Only the comparisons matter for the way down. -/
theorem findLoop_value {α : Type} {cmp : α → α → Int} (v v' : α) (size : Int) (t : T α) (fs : List (PersistentSet.Frame α))
    (h : ∀ x, cmp v x = cmp v' x) :
    PersistentSet.findLoop cmp v' size t fs = if (PersistentSet.findLoop cmp v size t fs).fresh then
      { PersistentSet.findLoop cmp v size t fs with v := v' } else PersistentSet.findLoop cmp v size t fs := by
  induction t generalizing fs with
  | leaf => rfl
  | node red l x r ihl ihr =>
    simp only [PersistentSet.findLoop, ← h x]
    by_cases h1 : cmp v x < 0
    · simp only [if_pos h1]; exact ihl _
    · simp only [if_neg h1]
      by_cases h2 : cmp v x > 0
      · simp only [if_pos h2]; exact ihr _
      · simp only [if_neg h2]; rfl

/-! ### The representation -/

/-- Every node has cells, of different keys with its hash code. -/
structure NodeOk (hash : K → BitVec 32) (n : Node K V) : Prop where
  some_cell : n.cells ≠ []
  code : ∀ e ∈ n.cells, hash e.1 = n.key
  nodup : (n.cells.map (·.1)).Nodup

/-- The value of a key among the nodes. -/
def look (hash : K → BitVec 32) (l : List (Node K V)) (k : K) : Option V :=
  (findSpec exact ⟨hash k, []⟩ l).bind fun n => cellOf k n.cells

/-- The content has these nodes. -/
structure Holds (hash : K → BitVec 32) (c : Content K V) (l : List (Node K V)) : Prop where
  rep : Rep exact c.set l
  nodes : ∀ n ∈ l, NodeOk hash n

/-- The content is a map; `size` is the number of its entries. -/
def IsMap (hash : K → BitVec 32) (c : Content K V) (m : Map K V) : Prop :=
  ∃ l, Holds hash c l ∧ (∀ k, m k = look hash l k) ∧ c.size = (l.flatMap (·.cells)).length

theorem nodeOk_key {hash : K → BitVec 32} {n : Node K V} (h : NodeOk hash n) : ∃ k, hash k = n.key := by
  cases hc : n.cells with
  | nil => exact absurd hc h.some_cell
  | cons e r => exact ⟨e.1, h.code e (by rw [hc]; simp)⟩

/-- With hash codes in a window, the search is that with the other comparator. -/
theorem find_exact {hash : K → BitVec 32} (hw : Window hash) {c : Content K V} {l : List (Node K V)} (h : Holds hash c l) (k : K)
    (cells : List (K × V)) :
    PersistentSet.find compareTo c.set ⟨hash k, cells⟩ = PersistentSet.find exact c.set ⟨hash k, cells⟩ := by
  obtain ⟨a, ha⟩ := hw
  refine findLoop_congr _ _ _ _ fun n hn => ?_
  rw [h.rep.elems] at hn
  obtain ⟨k', hk'⟩ := nodeOk_key (h.nodes n hn)
  exact compare_exact (x := a) (ha k) (by rw [← hk']; exact ha k')

/-- What the search for a hash code finds. -/
theorem found {hash : K → BitVec 32} {c : Content K V} {l : List (Node K V)} (h : Holds hash c l) (k : K) :
    findSpec exact ⟨hash k, []⟩ l = if (PersistentSet.find exact c.set ⟨hash k, []⟩).fresh then none
      else some (PersistentSet.find exact c.set ⟨hash k, []⟩).v := find_spec exact_order h.rep _

/-- A node that was not there has no cells. -/
theorem fresh_cells {hash : K → BitVec 32} {c : Content K V} {l : List (Node K V)} (h : Holds hash c l) (k : K)
    (hf : (PersistentSet.find exact c.set ⟨hash k, []⟩).fresh = true) :
    (PersistentSet.find exact c.set ⟨hash k, []⟩).v = ⟨hash k, []⟩ := by
  rw [((PersistentSet.find_ok exact_order h.rep _).miss hf).1]

theorem cell_found {hash : K → BitVec 32} (hw : Window hash) {c : Content K V} {l : List (Node K V)} (h : Holds hash c l) (k : K) :
    cellOf k (PersistentSet.find compareTo c.set ⟨hash k, []⟩).v.cells = look hash l k := by
  rw [find_exact hw h, look, found h]
  cases hf : (PersistentSet.find exact c.set ⟨hash k, []⟩).fresh with
  | true => rw [fresh_cells h k hf]; rfl
  | false => rfl

/-! ### Cells -/

omit [DecidableEq V] in
theorem cellOf_mem {k : K} {v : V} {l : List (K × V)} (h : cellOf k l = some v) : (k, v) ∈ l := by
  induction l with
  | nil => cases h
  | cons e r ih =>
    obtain ⟨k', v'⟩ := e
    simp only [cellOf] at h
    by_cases hk : k = k'
    · rw [if_pos hk] at h
      cases h; subst hk; simp
    · rw [if_neg hk] at h
      exact List.mem_cons_of_mem _ (ih h)

omit [DecidableEq V] in
theorem mem_cellOf {k : K} {v : V} {l : List (K × V)} (hn : (l.map (·.1)).Nodup) (h : (k, v) ∈ l) : cellOf k l = some v := by
  induction l with
  | nil => cases h
  | cons e r ih =>
    obtain ⟨k', v'⟩ := e
    simp only [List.map_cons, List.nodup_cons] at hn
    simp only [cellOf]
    rcases List.mem_cons.1 h with h | h
    · cases h; simp
    · rw [if_neg (fun hk => hn.1 (by rw [← hk]; exact List.mem_map.2 ⟨(k, v), h, rfl⟩))]
      exact ih hn.2 h

omit [DecidableEq V] in
theorem replace_cellOf (k : K) (v : V) (l : List (K × V)) (k' : K) :
    cellOf k' (replaceCell k v l) = if k' = k ∧ cellOf k l ≠ none then some v else cellOf k' l := by
  induction l with
  | nil => simp [replaceCell, cellOf]
  | cons e r ih =>
    obtain ⟨a, b⟩ := e
    simp only [replaceCell]
    by_cases h : k = a
    · subst h
      simp only [if_true, cellOf]
      by_cases h' : k' = k <;> simp [h']
    · simp only [if_neg h, cellOf, ih]
      by_cases h' : k' = a
      · subst h'
        simp [show ¬ k' = k from fun e => h e.symm]
      · simp [h']

omit [DecidableEq V] in
theorem replace_keys (k : K) (v : V) (l : List (K × V)) : (replaceCell k v l).map (·.1) = l.map (·.1) := by
  induction l with
  | nil => rfl
  | cons e r ih =>
    obtain ⟨a, b⟩ := e
    simp only [replaceCell]
    by_cases h : k = a
    · simp [h]
    · simp [if_neg h, ih]

omit [DecidableEq V] in
theorem remove_sublist (k : K) (l : List (K × V)) : (removeCell k l).Sublist l := by
  induction l with
  | nil => exact List.Sublist.refl _
  | cons e r ih =>
    obtain ⟨a, b⟩ := e
    simp only [removeCell]
    by_cases h : k = a
    · rw [if_pos h]; exact List.sublist_cons_self _ _
    · rw [if_neg h]; exact ih.cons₂ _

omit [DecidableEq V] in
theorem remove_cellOf (k : K) (l : List (K × V)) (hn : (l.map (·.1)).Nodup) (k' : K) :
    cellOf k' (removeCell k l) = if k' = k then none else cellOf k' l := by
  induction l with
  | nil => simp [removeCell, cellOf]
  | cons e r ih =>
    obtain ⟨a, b⟩ := e
    simp only [List.map_cons, List.nodup_cons] at hn
    simp only [removeCell]
    by_cases h : k = a
    · subst h
      simp only [if_true, cellOf]
      by_cases h' : k' = k
      · subst h'
        simp only [if_true]
        cases hc : cellOf k' r with
        | none => rfl
        | some v => exact absurd (List.mem_map.2 ⟨(k', v), cellOf_mem hc, rfl⟩) hn.1
      · simp [h']
    · simp only [if_neg h, cellOf, ih hn.2]
      by_cases h' : k' = a
      · subst h'
        simp [show ¬ k' = k from fun e => h e.symm]
      · simp [h']

omit [DecidableEq V] in
theorem remove_length (k : K) (l : List (K × V)) (h : cellOf k l ≠ none) : (removeCell k l).length + 1 = l.length := by
  induction l with
  | nil => exact absurd rfl h
  | cons e r ih =>
    obtain ⟨a, b⟩ := e
    simp only [removeCell]
    by_cases hk : k = a
    · simp [hk]
    · rw [if_neg hk]
      simp only [cellOf, if_neg hk] at h
      simp [ih h]

/-! ### Nodes -/

omit [DecidableEq V] in
theorem look_put (hash : K → BitVec 32) (l : List (Node K V)) (n : Node K V) (k : K) :
    look hash (putSpec exact n l) k = if hash k = n.key then cellOf k n.cells else look hash l k := by
  unfold look
  rw [PersistentSet.find_put exact_order]
  by_cases h : hash k = n.key
  · rw [if_pos ((exact_zero _ _).2 h), if_pos h]; rfl
  · rw [if_neg (fun e => h ((exact_zero _ _).1 e)), if_neg h]

omit [DecidableEq V] in
theorem look_erase (hash : K → BitVec 32) (l : List (Node K V)) (n : Node K V) (k : K) :
    look hash (eraseSpec exact n l) k = if hash k = n.key then none else look hash l k := by
  unfold look
  rw [PersistentSet.find_erase exact_order]
  by_cases h : hash k = n.key
  · rw [if_pos ((exact_zero _ _).2 h), if_pos h]; rfl
  · rw [if_neg (fun e => h ((exact_zero _ _).1 e)), if_neg h]

omit [DecidableEq K] [DecidableEq V] in
theorem mem_put {l : List (Node K V)} {n x : Node K V} (h : x ∈ putSpec exact n l) : x = n ∨ x ∈ l := by
  unfold putSpec at h
  simp only [List.mem_append, List.mem_filter, List.mem_cons] at h
  rcases h with h | h | h
  · exact Or.inr h.1
  · exact Or.inl h
  · exact Or.inr h.1

omit [DecidableEq K] [DecidableEq V] in
theorem mem_erase {l : List (Node K V)} {n x : Node K V} (h : x ∈ eraseSpec exact n l) : x ∈ l := (List.mem_filter.1 h).1

/-- A node in the place of one that was found: the nodes around stay. -/
theorem put_hit {hash : K → BitVec 32} {c : Content K V} {l : List (Node K V)} (h : Holds hash c l) (k : K) (n : Node K V)
    (hn : n.key = hash k) (hf : (PersistentSet.find exact c.set ⟨hash k, []⟩).fresh = false) :
    ∃ a b, l = a ++ (PersistentSet.find exact c.set ⟨hash k, []⟩).v :: b ∧ putSpec exact n l = a ++ n :: b ∧
      eraseSpec exact n l = a ++ b ∧ (PersistentSet.find exact c.set ⟨hash k, []⟩).v.key = hash k := by
  obtain ⟨e, hz, _, _⟩ := find_hit exact_order h.rep ⟨hash k, []⟩ hf
  have hs := h.rep.sorted
  rw [e] at hs
  have hz' : exact n (PersistentSet.find exact c.set ⟨hash k, []⟩).v = 0 := by
    rw [exact_zero, hn]; exact (exact_zero _ _).1 hz
  obtain ⟨h1, h2⟩ := PersistentSet.eq_only exact_order hs hz'
  refine ⟨_, _, e, ?_, ?_, ((exact_zero _ _).1 hz).symm⟩
  · conv => lhs; rw [e]
    exact PersistentSet.putSpec_hit h1 h2 hz'
  · conv => lhs; rw [e]
    exact PersistentSet.eraseSpec_hit h1 h2 hz'

/-- A node at a path that was found. -/
theorem replaceWith_node {hash : K → BitVec 32} (hw : Window hash) {c : Content K V} {l : List (Node K V)} (h : Holds hash c l) (k : K)
    (cells : List (K × V)) (hf : (PersistentSet.find exact c.set ⟨hash k, []⟩).fresh = false) :
    ∃ s', (PersistentSet.find compareTo c.set ⟨hash k, []⟩).replaceWith compareTo ⟨hash k, cells⟩ = .ok s' ∧
      Rep exact s' (putSpec exact ⟨hash k, cells⟩ l) := by
  have hsame := findLoop_value (cmp := exact) (⟨hash k, []⟩ : Node K V) ⟨hash k, cells⟩ c.set.size c.set.root [] (fun _ => rfl)
  have hsame' : PersistentSet.find exact c.set ⟨hash k, cells⟩ = PersistentSet.find exact c.set ⟨hash k, []⟩ := by
    unfold PersistentSet.find at hf ⊢
    rw [hsame, hf]; rfl
  obtain ⟨s', e, r⟩ := PersistentSet.replaceWith_ok exact_order h.rep (⟨hash k, cells⟩ : Node K V) (by rw [hsame']; exact hf)
  refine ⟨s', ?_, r⟩
  rw [find_exact hw h, ← hsame']
  rw [hsame'] at e ⊢
  have hz := (find_hit exact_order h.rep ⟨hash k, []⟩ hf).2.1
  have hk := (exact_zero _ _).1 hz
  have hc : compareTo (PersistentSet.find exact c.set ⟨hash k, []⟩).v ⟨hash k, cells⟩ = 0 := by
    unfold compareTo
    rw [← hk]
    simp
  have he : exact (PersistentSet.find exact c.set ⟨hash k, []⟩).v ⟨hash k, cells⟩ = 0 := (exact_zero _ _).2 hk.symm
  unfold PersistentSet.Path.replaceWith at e ⊢
  rw [if_neg (by simp [hf]), if_neg (by simp [he])] at e
  rw [if_neg (by simp [hf]), if_neg (by simp [hc])]
  exact e

theorem add_node {hash : K → BitVec 32} (hw : Window hash) {c : Content K V} {l : List (Node K V)} (h : Holds hash c l) (k : K)
    (cells : List (K × V)) (hf : (PersistentSet.find exact c.set ⟨hash k, []⟩).fresh = true) :
    ∃ s', ({ PersistentSet.find compareTo c.set ⟨hash k, []⟩ with v := ⟨hash k, cells⟩ } : Path (Node K V)).add = .ok s' ∧
      Rep exact s' (putSpec exact ⟨hash k, cells⟩ l) := by
  have hsame := findLoop_value (cmp := exact) (⟨hash k, []⟩ : Node K V) ⟨hash k, cells⟩ c.set.size c.set.root [] (fun _ => rfl)
  have hsame' : PersistentSet.find exact c.set ⟨hash k, cells⟩ =
      { PersistentSet.find exact c.set ⟨hash k, []⟩ with v := ⟨hash k, cells⟩ } := by
    unfold PersistentSet.find at hf ⊢
    rw [hsame, hf]; rfl
  have hf' : (PersistentSet.find exact c.set ⟨hash k, cells⟩).fresh = true := by rw [hsame']; exact hf
  obtain ⟨s', e, r⟩ := PersistentSet.addPath_ok exact_order h.rep (⟨hash k, cells⟩ : Node K V) hf'
  refine ⟨s', ?_, r⟩
  rw [find_exact hw h, ← hsame']
  unfold PersistentSet.Path.add
  rw [if_pos hf']
  exact e

theorem remove_node {hash : K → BitVec 32} (hw : Window hash) {c : Content K V} {l : List (Node K V)} (h : Holds hash c l) (k : K)
    (hf : (PersistentSet.find exact c.set ⟨hash k, []⟩).fresh = false) :
    ∃ s', (PersistentSet.find compareTo c.set ⟨hash k, []⟩).remove = .ok s' ∧ Rep exact s' (eraseSpec exact ⟨hash k, []⟩ l) := by
  rw [find_exact hw h]
  have := PersistentSet.path_remove_ok exact_order h.rep (⟨hash k, []⟩ : Node K V)
  rw [found h k, hf] at this
  simpa using this

/-! ### Operations -/

/-- **C93.** `get` and `containsKey`. -/
theorem get_ok {hash : K → BitVec 32} (hw : Window hash) {c : Content K V} {m : Map K V} (h : IsMap hash c m) (k : K) :
    find hash c k = m k := by
  obtain ⟨l, hl, hm, _⟩ := h
  rw [hm, ← cell_found hw hl]; rfl

/-- A round does what the map `m'` in the place of `m` means, and returns `r`. -/
def Does (hash : K → BitVec 32) (m' m : Map K V) (r : Option V) : Attempt K V → Prop
  | .ret cell => cell = r ∧ m' = m
  | .swap c' cell => cell = r ∧ IsMap hash c' m'
  | .exn _ => False

theorem not_fresh {hash : K → BitVec 32} {c : Content K V} {l : List (Node K V)} (h : Holds hash c l) (k : K)
    (hl : look hash l k ≠ none) : (PersistentSet.find exact c.set ⟨hash k, []⟩).fresh = false := by
  cases hf : (PersistentSet.find exact c.set ⟨hash k, []⟩).fresh with
  | false => rfl
  | true =>
    refine absurd ?_ hl
    unfold look
    rw [found h, hf]; rfl

/-- The value of a key of a node that was found. -/
theorem look_found {hash : K → BitVec 32} {c : Content K V} {l : List (Node K V)} (h : Holds hash c l) (k k' : K) (e : hash k' = hash k)
    (hf : (PersistentSet.find exact c.set ⟨hash k, []⟩).fresh = false) :
    look hash l k' = cellOf k' (PersistentSet.find exact c.set ⟨hash k, []⟩).v.cells := by
  unfold look
  rw [e, found h, hf]; rfl

/-- **C93.** `put`, `putIfAbsent` and `replace`, if no other key has the hash code of the key.  Missing for the full statement,
because it is false: keys with equal hash codes (`put_collision_wrong`) and hash codes that are far apart (`far_apart_wrong`). -/
theorem put_ok_partial {hash : K → BitVec 32} (hw : Window hash) {c : Content K V} {m : Map K V} (h : IsMap hash c m) (k : K) (v : V)
    (cond : PutCondition V) (ha : Alone hash m k) : Does hash (putMap m k v cond) m (m k) (putOnce hash c k v cond) := by
  obtain ⟨l, hl, hm, hsz⟩ := h
  unfold putOnce
  simp only
  rw [cell_found hw hl, ← hm]
  cases hk : m k with
  | some old =>
    simp only
    by_cases hc : cond.addIfPresent old
    · rw [if_pos hc]
      have hf := not_fresh hl k (by rw [← hm, hk]; simp)
      obtain ⟨s', e, r⟩ := replaceWith_node hw hl k (replaceCell k v (PersistentSet.find compareTo c.set ⟨hash k, []⟩).v.cells) hf
      rw [e]
      rw [find_exact hw hl] at r
      refine ⟨rfl, _, ⟨r, ?_⟩, ?_, ?_⟩
      · intro n hn
        rcases mem_put hn with rfl | hn
        · obtain ⟨a, b, el, _, _, ekey⟩ := put_hit hl k ⟨hash k, []⟩ rfl hf
          have hx := hl.nodes (PersistentSet.find exact c.set ⟨hash k, []⟩).v (by rw [el]; simp)
          refine ⟨?_, ?_, ?_⟩
          · intro e0
            have := congrArg (List.map (·.1)) e0
            rw [replace_keys] at this
            exact hx.some_cell (List.map_eq_nil_iff.1 this)
          · intro e he
            have : e.1 ∈ (replaceCell k v (PersistentSet.find exact c.set ⟨hash k, []⟩).v.cells).map (·.1) := List.mem_map.2 ⟨e, he, rfl⟩
            rw [replace_keys] at this
            obtain ⟨e', he', e1⟩ := List.mem_map.1 this
            rw [← e1, hx.code e' he', ekey]
          · rw [replace_keys]; exact hx.nodup
        · exact hl.nodes n hn
      · intro k'
        have hput : putMap m k v cond = m.set k (some v) := by
          cases cond with
          | always => rfl
          | ifAbsent => simp [PutCondition.addIfPresent] at hc
          | ifPresent => simp [putMap, hk]
          | ifEqual o =>
            simp only [PutCondition.addIfPresent, decide_eq_true_eq] at hc
            simp [putMap, hk, hc]
        rw [hput, look_put, replace_cellOf]
        simp only [Map.set]
        by_cases e : hash k' = hash k
        · rw [if_pos e]
          have hne : cellOf k (PersistentSet.find exact c.set ⟨hash k, []⟩).v.cells ≠ none := by
            rw [← look_found hl k k rfl hf, ← hm, hk]; simp
          by_cases ek : k' = k
          · rw [if_pos ek, if_pos ⟨ek, hne⟩]
          · rw [if_neg ek, if_neg (fun x => ek x.1), hm, look_found hl k k' e hf]
        · rw [if_neg e, if_neg (fun x => e (by rw [x])), hm]
      · obtain ⟨a, b, el, ep, _, _⟩ := put_hit hl k ⟨hash k, replaceCell k v (PersistentSet.find exact c.set ⟨hash k, []⟩).v.cells⟩ rfl hf
        have hlen : (replaceCell k v (PersistentSet.find exact c.set ⟨hash k, []⟩).v.cells).length =
            (PersistentSet.find exact c.set ⟨hash k, []⟩).v.cells.length := by
          have := congrArg List.length (replace_keys k v (PersistentSet.find exact c.set ⟨hash k, []⟩).v.cells)
          simpa using this
        rw [ep]
        simp only
        rw [hsz]
        conv => lhs; rw [el]
        simp only [List.flatMap_append, List.flatMap_cons, List.length_append, hlen]
    · rw [if_neg hc]
      refine ⟨rfl, ?_⟩
      cases cond with
      | always => exact absurd rfl hc
      | ifAbsent => simp [putMap, hk]
      | ifPresent => exact absurd rfl hc
      | ifEqual o =>
        simp only [PutCondition.addIfPresent, decide_eq_true_eq] at hc
        simp [putMap, hk, hc]
  | none =>
    simp only
    by_cases hc : cond.addIfAbsent
    · rw [if_pos hc]
      have hf : (PersistentSet.find exact c.set ⟨hash k, []⟩).fresh = true := by
        cases hf : (PersistentSet.find exact c.set ⟨hash k, []⟩).fresh with
        | true => rfl
        | false =>
          obtain ⟨a, b, el, _, _, ekey⟩ := put_hit hl k ⟨hash k, []⟩ rfl hf
          have hx := hl.nodes (PersistentSet.find exact c.set ⟨hash k, []⟩).v (by rw [el]; simp)
          cases hcells : (PersistentSet.find exact c.set ⟨hash k, []⟩).v.cells with
          | nil => exact absurd hcells hx.some_cell
          | cons e0 r0 =>
            have hk0 : hash e0.1 = hash k := by rw [hx.code e0 (by rw [hcells]; simp), ekey]
            have hm0 : m e0.1 = some e0.2 := by
              rw [hm, look_found hl k e0.1 hk0 hf]
              exact mem_cellOf hx.nodup (by rw [hcells]; simp)
            have := ha e0.1 (by rw [hm0]; simp) hk0
            rw [this, hk] at hm0
            cases hm0
      obtain ⟨s', e, r⟩ := add_node hw hl k [(k, v)] hf
      have hf' : (PersistentSet.find compareTo c.set ⟨hash k, []⟩).fresh = true := by rw [find_exact hw hl]; exact hf
      rw [if_pos hf', e]
      refine ⟨rfl, _, ⟨r, ?_⟩, ?_, ?_⟩
      · intro n hn
        rcases mem_put hn with rfl | hn
        · exact ⟨by simp, by simp, by simp⟩
        · exact hl.nodes n hn
      · intro k'
        have hput : putMap m k v cond = m.set k (some v) := by
          cases cond with
          | always => rfl
          | ifAbsent => simp [putMap, hk]
          | ifPresent => simp [PutCondition.addIfAbsent] at hc
          | ifEqual o => simp [PutCondition.addIfAbsent] at hc
        rw [hput, look_put]
        simp only [Map.set, cellOf]
        by_cases ek : k' = k
        · subst ek; simp
        · rw [if_neg ek]
          by_cases e : hash k' = hash k
          · rw [if_pos e, if_neg ek]
            cases hm' : m k' with
            | none => rfl
            | some x => exact absurd (ha k' (by rw [hm']; simp) e) ek
          · rw [if_neg e, hm]
      · obtain ⟨_, ei, h1, h2, _⟩ := (PersistentSet.find_ok exact_order hl.rep (⟨hash k, []⟩ : Node K V)).miss hf
        rw [hl.rep.elems] at ei
        have ep : putSpec exact ⟨hash k, [(k, v)]⟩ l =
            PersistentSet.before (PersistentSet.find exact c.set (⟨hash k, []⟩ : Node K V)).above ++
              ⟨hash k, [(k, v)]⟩ :: PersistentSet.after (PersistentSet.find exact c.set (⟨hash k, []⟩ : Node K V)).above := by
          conv => lhs; rw [← ei]
          exact PersistentSet.putSpec_split h1 h2
        rw [ep]
        simp only
        rw [hsz]
        conv => lhs; rw [← ei]
        simp only [List.flatMap_append, List.flatMap_cons, List.length_append, List.length_cons, List.length_nil]
        omega
    · rw [if_neg hc]
      refine ⟨rfl, ?_⟩
      cases cond with
      | always => exact absurd rfl hc
      | ifAbsent => exact absurd rfl hc
      | ifPresent => simp [putMap, hk]
      | ifEqual o => simp [putMap, hk]

/-- **C93, a disagreement.** A new key takes the place of all keys with the same hash code; the size counts them still. -/
theorem put_collision_wrong {hash : K → BitVec 32} (hw : Window hash) {c : Content K V} {m : Map K V} (h : IsMap hash c m) (k k' : K) (v : V)
    (hk : m k = none) (hk' : m k' ≠ none) (he : hash k' = hash k) :
    ∃ c', putOnce hash c k v .always = .swap c' none ∧ find hash c' k' = none ∧ c'.size = c.size + 1 := by
  obtain ⟨l, hl, hm, hsz⟩ := h
  have hne : k' ≠ k := fun e => hk' (by rw [e, hk])
  have hf := not_fresh hl k' (by rw [← hm]; exact hk')
  rw [he] at hf
  have hf' : (PersistentSet.find compareTo c.set (⟨hash k, []⟩ : Node K V)).fresh = false := by rw [find_exact hw hl]; exact hf
  obtain ⟨s', e, r⟩ := replaceWith_node hw hl k [(k, v)] hf
  refine ⟨⟨s', c.size + 1⟩, ?_, ?_, rfl⟩
  · unfold putOnce
    simp only
    rw [cell_found hw hl, ← hm, hk]
    simp only [PutCondition.addIfAbsent, if_true, hf', e]
    rfl
  · have hl' : Holds hash (⟨s', c.size + 1⟩ : Content K V) (putSpec exact ⟨hash k, [(k, v)]⟩ l) := by
      refine ⟨r, ?_⟩
      intro n hn
      rcases mem_put hn with rfl | hn
      · exact ⟨by simp, by simp, by simp⟩
      · exact hl.nodes n hn
    unfold find
    rw [cell_found hw hl', look_put, if_pos he]
    simp [cellOf, hne]

/-- **C93.** `remove`, of one and of two arguments. -/
theorem remove_ok {hash : K → BitVec 32} (hw : Window hash) {c : Content K V} {m : Map K V} (h : IsMap hash c m) (k : K)
    (cond : RemoveCondition V) : Does hash (removeMap m k cond) m (m k) (removeOnce hash c k cond) := by
  obtain ⟨l, hl, hm, hsz⟩ := h
  unfold removeOnce
  simp only
  rw [cell_found hw hl, ← hm]
  cases hk : m k with
  | none =>
    refine ⟨rfl, ?_⟩
    cases cond with
    | always =>
      funext k'
      simp only [removeMap, Map.set]
      by_cases e : k' = k
      · rw [if_pos e, e, hk]
      · rw [if_neg e]
    | ifEqual o => simp [removeMap, hk]
  | some old =>
    simp only
    by_cases hc : cond.remove old
    · rw [if_pos hc]
      have hrem : removeMap m k cond = m.set k none := by
        cases cond with
        | always => rfl
        | ifEqual o =>
          simp only [RemoveCondition.remove, decide_eq_true_eq] at hc
          simp [removeMap, hk, hc]
      have hf := not_fresh hl k (by rw [← hm, hk]; simp)
      have hne : cellOf k (PersistentSet.find exact c.set ⟨hash k, []⟩).v.cells ≠ none := by
        rw [← look_found hl k k rfl hf, ← hm, hk]; simp
      have hlen := remove_length k _ hne
      rw [hrem, find_exact hw hl]
      obtain ⟨a0, b0, el0, _, _, ekey⟩ := put_hit hl k ⟨hash k, []⟩ rfl hf
      have hx := hl.nodes (PersistentSet.find exact c.set ⟨hash k, []⟩).v (by rw [el0]; simp)
      by_cases hr : removeCell k (PersistentSet.find exact c.set ⟨hash k, []⟩).v.cells = []
      · rw [if_pos hr]
        obtain ⟨s', e, r⟩ := remove_node hw hl k hf
        rw [find_exact hw hl] at e
        rw [e]
        refine ⟨rfl, _, ⟨r, fun n hn => hl.nodes n (mem_erase hn)⟩, ?_, ?_⟩
        · intro k'
          rw [look_erase]
          simp only [Map.set]
          by_cases e : hash k' = hash k
          · rw [if_pos e]
            by_cases ek : k' = k
            · rw [if_pos ek]
            · rw [if_neg ek, hm, look_found hl k k' e hf]
              have := remove_cellOf k _ hx.nodup k'
              rw [hr, if_neg ek] at this
              exact this.symm
          · rw [if_neg e, if_neg (fun x => e (by rw [x])), hm]
        · obtain ⟨a, b, el, _, ee, _⟩ := put_hit hl k ⟨hash k, []⟩ rfl hf
          rw [ee]
          simp only
          rw [hsz]
          conv => lhs; rw [el]
          rw [hr] at hlen
          simp only [List.length_nil] at hlen
          simp only [List.flatMap_append, List.flatMap_cons, List.length_append]
          omega
      · rw [if_neg hr]
        obtain ⟨s', e, r⟩ := replaceWith_node hw hl k (removeCell k (PersistentSet.find exact c.set ⟨hash k, []⟩).v.cells) hf
        rw [find_exact hw hl] at e
        rw [e]
        have hsub := remove_sublist k (PersistentSet.find exact c.set ⟨hash k, []⟩).v.cells
        refine ⟨rfl, _, ⟨r, ?_⟩, ?_, ?_⟩
        · intro n hn
          rcases mem_put hn with rfl | hn
          · refine ⟨hr, ?_, ?_⟩
            · intro e he
              rw [hx.code e (hsub.subset he), ekey]
            · exact hx.nodup.sublist (hsub.map _)
          · exact hl.nodes n hn
        · intro k'
          rw [look_put, remove_cellOf k _ hx.nodup]
          simp only [Map.set]
          by_cases e : hash k' = hash k
          · rw [if_pos e]
            by_cases ek : k' = k
            · rw [if_pos ek, if_pos ek]
            · rw [if_neg ek, if_neg ek, hm, look_found hl k k' e hf]
          · rw [if_neg e, if_neg (fun x => e (by rw [x])), hm]
        · obtain ⟨a, b, el, ep, _, _⟩ := put_hit hl k ⟨hash k, removeCell k (PersistentSet.find exact c.set ⟨hash k, []⟩).v.cells⟩ rfl hf
          rw [ep]
          simp only
          rw [hsz]
          conv => lhs; rw [el]
          simp only [List.flatMap_append, List.flatMap_cons, List.length_append]
          omega
    · rw [if_neg hc]
      refine ⟨rfl, ?_⟩
      cases cond with
      | always => exact absurd rfl hc
      | ifEqual o =>
        simp only [RemoveCondition.remove, decide_eq_true_eq] at hc
        simp [removeMap, hk, hc]

/-- **C93.** A new map. -/
theorem empty_ok (hash : K → BitVec 32) : IsMap hash (empty : Content K V) (fun _ => none) :=
  ⟨[], ⟨PersistentSet.empty_rep exact, by simp⟩, fun _ => rfl, rfl⟩

theorem node_unique {hash : K → BitVec 32} {c : Content K V} {l : List (Node K V)} (h : Holds hash c l) {n : Node K V} (hn : n ∈ l) (k : K)
    (e : n.key = hash k) : findSpec exact ⟨hash k, []⟩ l = some n := by
  obtain ⟨a, b, el⟩ := List.append_of_mem hn
  have hs := h.rep.sorted
  rw [el] at hs
  have hz : exact (⟨hash k, []⟩ : Node K V) n = 0 := (exact_zero _ _).2 e.symm
  have := PersistentSet.eq_only exact_order hs hz
  unfold findSpec
  rw [el, List.find?_append, List.find?_eq_none.2 (fun y hy => by have := this.1 y hy; simp; omega)]
  simp [hz]

/-- **C93.** The entries of a map, in the list of nodes and cells. -/
theorem cells_entries {hash : K → BitVec 32} {c : Content K V} {m : Map K V} {l : List (Node K V)} (h : Holds hash c l)
    (hm : ∀ k, m k = look hash l k) : Entries m (l.flatMap (·.cells)) := by
  constructor
  · have hs := h.rep.sorted
    have hn := h.nodes
    clear hm h
    induction l with
    | nil => simp
    | cons n r ih =>
      simp only [List.flatMap_cons, List.map_append]
      have hs' := List.pairwise_cons.1 hs
      rw [List.nodup_append]
      refine ⟨(hn n (by simp)).nodup, ih hs'.2 (fun x hx => hn x (by simp [hx])), ?_⟩
      intro k1 hk1 k2 hk2 e
      obtain ⟨e1, he1, rfl⟩ := List.mem_map.1 hk1
      obtain ⟨e2, he2, rfl⟩ := List.mem_map.1 hk2
      obtain ⟨n2, hn2, he2⟩ := List.mem_flatMap.1 he2
      have c1 := (hn n (by simp)).code e1 he1
      have c2 := (hn n2 (by simp [hn2])).code e2 he2
      have hlt := hs'.1 n2 hn2
      have : exact n n2 = 0 := (exact_zero n n2).2 (by rw [← c1, ← c2, e])
      omega
  · intro k v
    rw [hm, look, List.mem_flatMap]
    constructor
    · rintro ⟨n, hn, he⟩
      have ok := h.nodes n hn
      rw [node_unique h hn k (ok.code _ he).symm]
      exact mem_cellOf ok.nodup he
    · intro e
      cases hf : findSpec exact ⟨hash k, []⟩ l with
      | none => rw [hf] at e; cases e
      | some n =>
        rw [hf] at e
        exact ⟨n, List.mem_of_find?_eq_some hf, cellOf_mem e⟩

theorem iterate_from {s : PSet (Node K V)} : ∀ (n : Nat) (b : List (Node K V)) (p : Option (Path (Node K V))) (cells : List (K × V)),
    (match b with
      | [] => p = none
      | v :: r => ∃ a q, p = some q ∧ PersistentSet.At s a v r q) →
    (∀ x ∈ b, x.cells ≠ []) → (cells ++ b.flatMap (·.cells)).length < n → iterate n p cells = cells ++ b.flatMap (·.cells) := by
  intro n
  induction n with
  | zero => intro b p cells _ _ h; omega
  | succ n ih =>
    intro b p cells hp hb hn
    cases cells with
    | cons e r =>
      have hn' : (r ++ b.flatMap (·.cells)).length < n := by
        simp only [List.cons_append, List.length_cons] at hn; omega
      cases p with
      | none => simp only [iterate]; rw [ih b none r hp hb hn']; rfl
      | some q => simp only [iterate]; rw [ih b (some q) r hp hb hn']; rfl
    | nil =>
      cases b with
      | nil => simp only at hp; rw [hp]; rfl
      | cons v b =>
        obtain ⟨a, q, e, hat⟩ := hp
        rw [e]
        simp only [iterate, hat.here]
        cases hc : v.cells with
        | nil => exact absurd hc (hb v (by simp))
        | cons e0 r0 =>
          simp only [List.flatMap_cons, List.nil_append, hc]
          simp only [List.flatMap_cons, List.nil_append, hc, List.cons_append, List.length_cons] at hn
          rw [ih b q.successor r0 ?_ (fun x hx => hb x (by simp [hx])) (by omega)]
          · rfl
          · have := PersistentSet.successor_ok hat
            cases b with
            | nil => exact this
            | cons w b' =>
              obtain ⟨q', e', h', _⟩ := this
              exact ⟨_, q', e', h'⟩

theorem cellCount_eq (t : T (Node K V)) : cellCount t = (t.inorder.flatMap (·.cells)).length := by
  induction t with
  | leaf => rfl
  | node red l x r ihl ihr =>
    simp only [cellCount, T.inorder, List.flatMap_append, List.flatMap_cons, List.length_append, ihl, ihr]; omega

/-- **C93.** An iteration gives each entry once, and `size` is their number. -/
theorem entries_ok {hash : K → BitVec 32} {c : Content K V} {m : Map K V} (h : IsMap hash c m) :
    Entries m (entries c) ∧ c.size = (entries c).length := by
  obtain ⟨l, hl, hm, hsz⟩ := h
  have : entries c = l.flatMap (·.cells) := by
    unfold entries
    rw [cellCount_eq, hl.rep.elems]
    rw [iterate_from (s := c.set) _ l (PersistentSet.first c.set) [] ?_ (fun x hx => (hl.nodes x hx).some_cell) (by simp)]
    · rfl
    · have := PersistentSet.first_ok hl.rep
      cases l with
      | nil => exact this
      | cons x r =>
        obtain ⟨p, e, hat, _⟩ := this
        exact ⟨_, p, e, hat⟩
  rw [this]
  exact ⟨cells_entries hl hm, hsz⟩

/-! ### Several threads -/

/-- What an operation does to a map, and what it returns. -/
def Meets (m : Map K V) (m' : Map K V) : Op K V → Res K V → Prop
  | .get k, .val x => x = m k ∧ m' = m
  | .size, .num n => (∃ es, Entries m es ∧ n = es.length) ∧ m' = m
  | .iterate, .seq es => Entries m es ∧ m' = m
  | .put k v cond, .val x => x = m k ∧ m' = putMap m k v cond
  | .remove k cond, .val x => x = m k ∧ m' = removeMap m k cond
  | .clear, .unit => m' = fun _ => none
  | _, _ => False

/-- Operations one after the other, beginning with the empty map. -/
inductive Legal : List (Op K V × Res K V) → Map K V → Prop where
  | nil : Legal [] (fun _ => none)
  | snoc {l : List (Op K V × Res K V)} {m m' : Map K V} {op : Op K V} {r : Res K V} : Legal l m → Meets m m' op r → Legal (l ++ [(op, r)]) m'

/-- The operations in the order in which they took effect. -/
def points (tr : List (Tid × Ev K V)) : List (Op K V × Res K V) :=
  tr.filterMap fun e => match e.2 with
    | .point op r => some (op, r)
    | _ => none

/-- The events of a thread. -/
def events (t : Tid) (tr : List (Tid × Ev K V)) : List (Ev K V) := (tr.filter (·.1 = t)).map (·.2)

inductive Phase (K V : Type) where
  | out
  | called (op : Op K V)
  | decided (op : Op K V) (r : Res K V)

/-- The operations of a thread are called, take effect once, and return what they returned when they took effect. -/
inductive Each : List (Ev K V) → Phase K V → Prop where
  | nil : Each [] .out
  | call {l : List (Ev K V)} {op : Op K V} : Each l .out → Each (l ++ [.call op]) (.called op)
  | point {l : List (Ev K V)} {op : Op K V} {r : Res K V} : Each l (.called op) → Each (l ++ [.point op r]) (.decided op r)
  | back {l : List (Ev K V)} {op : Op K V} {r : Res K V} : Each l (.decided op r) → Each (l ++ [.back op r]) .out

/-- One operation alone. -/
def alone (hash : K → BitVec 32) (c : Content K V) (op : Op K V) : Content K V × Res K V :=
  match look1 hash c op with
  | some r => (c, r)
  | none =>
    match round hash c op with
    | some (.ret x) => (c, .val x)
    | some (.swap c' x) => (c', .val x)
    | some (.exn e) => (c, .exn e)
    | none => (empty, .unit)

/-- Operations one after the other on a content. -/
inductive Replay (hash : K → BitVec 32) : List (Op K V × Res K V) → Content K V → Prop where
  | nil : Replay hash [] empty
  | snoc {l : List (Op K V × Res K V)} {c : Content K V} (op : Op K V) : Replay hash l c →
      Replay hash (l ++ [(op, (alone hash c op).2)]) (alone hash c op).1

def phase : Pc K V → Phase K V
  | .out => .out
  | .called op => .called op
  | .swapping op _ _ _ => .called op
  | .done op r => .decided op r

structure Inv (hash : K → BitVec 32) (tr : List (Tid × Ev K V)) (s : Sys K V) : Prop where
  zero : s.heap 0 = empty
  fresh : s.cur < s.used ∧ 0 < s.used
  old : ∀ t op r c x, s.pc t = .swapping op r c x → r < s.used ∧ round hash (s.heap r) op = some (.swap c x)
  each : ∀ t, Each (events t tr) (phase (s.pc t))
  replay : Replay hash (points tr) (s.heap s.cur)

theorem look_round {hash : K → BitVec 32} {c : Content K V} {op : Op K V} {a : Attempt K V} (h : round hash c op = some a) :
    look1 hash c op = none := by
  cases op <;> first | rfl | cases h

theorem points_append (a b : List (Tid × Ev K V)) : points (a ++ b) = points a ++ points b := List.filterMap_append ..

theorem events_append (t : Tid) (a b : List (Tid × Ev K V)) : events t (a ++ b) = events t a ++ events t b := by
  unfold events; rw [List.filter_append, List.map_append]

/-- The other threads do not notice. -/
theorem each_step {t : Tid} {tr : List (Tid × Ev K V)} {pc : Tid → Pc K V} {p : Pc K V} {e : Option (Ev K V)} (h : ∀ u, Each (events u tr) (phase (pc u)))
    (ht : Each (events t tr ++ e.toList) (phase p)) : ∀ u, Each (events u (tr ++ emit t e)) (phase (upd pc t p u)) := by
  intro u
  rw [events_append]
  unfold upd
  by_cases hu : u = t
  · rw [if_pos hu, hu]
    have : events t (emit t e) = e.toList := by cases e <;> simp [emit, events]
    rw [this]; exact ht
  · rw [if_neg hu]
    have : events u (emit t e) = [] := by
      cases e with
      | none => rfl
      | some e =>
        have : ¬ t = u := fun h => hu h.symm
        simp [emit, events, this]
    rw [this, List.append_nil]; exact h u

theorem old_step {hash : K → BitVec 32} {t : Tid} {heap : Nat → Content K V} {used : Nat} {pc : Tid → Pc K V} {p : Pc K V}
    (h : ∀ t op r c x, pc t = .swapping op r c x → r < used ∧ round hash (heap r) op = some (.swap c x))
    (ht : ∀ op r c x, p = .swapping op r c x → r < used ∧ round hash (heap r) op = some (.swap c x)) :
    ∀ u op r c x, upd pc t p u = .swapping op r c x → r < used ∧ round hash (heap r) op = some (.swap c x) := by
  intro u op r c x
  unfold upd
  by_cases hu : u = t
  · rw [if_pos hu]; exact ht op r c x
  · rw [if_neg hu]; exact h u op r c x

theorem inv_step {hash : K → BitVec 32} {t : Tid} {tr : List (Tid × Ev K V)} {s s' : Sys K V} {e : Option (Ev K V)} (h : Inv hash tr s)
    (hs : Step hash t s e s') : Inv hash (tr ++ emit t e) s' := by
  have het := h.each t
  cases hs with
  | call op hp =>
    rw [hp] at het
    refine ⟨h.zero, h.fresh, old_step h.old (by intro _ _ _ _ e; cases e), each_step h.each (.call het), ?_⟩
    rw [points_append]
    exact (List.append_nil (points tr)).symm ▸ h.replay
  | look op r hp hl =>
    rw [hp] at het
    refine ⟨h.zero, h.fresh, old_step h.old (by intro _ _ _ _ e; cases e), each_step h.each (.point het), ?_⟩
    rw [points_append]
    have := Replay.snoc op h.replay
    simp only [alone, hl] at this
    exact this
  | clear hp =>
    rw [hp] at het
    refine ⟨h.zero, ⟨h.fresh.2, h.fresh.2⟩, old_step h.old (by intro _ _ _ _ e; cases e), each_step h.each (.point het), ?_⟩
    rw [points_append]
    have := Replay.snoc .clear h.replay
    simp only [alone, look1, round] at this
    simp only [h.zero]
    exact this
  | give op x hp hr =>
    rw [hp] at het
    refine ⟨h.zero, h.fresh, old_step h.old (by intro _ _ _ _ e; cases e), each_step h.each (.point het), ?_⟩
    rw [points_append]
    have := Replay.snoc op h.replay
    simp only [alone, look_round hr, hr] at this
    exact this
  | fail op x hp hr =>
    rw [hp] at het
    refine ⟨h.zero, h.fresh, old_step h.old (by intro _ _ _ _ e; cases e), each_step h.each (.point het), ?_⟩
    rw [points_append]
    have := Replay.snoc op h.replay
    simp only [alone, look_round hr, hr] at this
    exact this
  | begin op c x hp hr =>
    rw [hp] at het
    refine ⟨h.zero, h.fresh, old_step h.old ?_, each_step h.each ((List.append_nil (events t tr)).symm ▸ het), ?_⟩
    · intro op' r' c' x' e
      cases e
      exact ⟨h.fresh.1, hr⟩
    · rw [points_append]
      exact (List.append_nil (points tr)).symm ▸ h.replay
  | swap op r c x hp hc =>
    rw [hp] at het
    have ho := (h.old t op r c x hp).2
    have hne : ∀ r, r < s.used → upd s.heap s.used c r = s.heap r := by
      intro r hr; unfold upd; rw [if_neg (by omega)]
    refine ⟨?_, ⟨by simp, by simp⟩, ?_, each_step h.each (.point het), ?_⟩
    · exact (hne 0 h.fresh.2).trans h.zero
    · refine old_step ?_ (by intro _ _ _ _ e; cases e)
      intro u op' r' c' x' e
      have := h.old u op' r' c' x' e
      refine ⟨Nat.lt_succ_of_lt this.1, ?_⟩
      simp only [hne r' this.1]
      exact this.2
    · rw [points_append]
      have := Replay.snoc op h.replay
      rw [← hc] at ho
      simp only [alone, look_round ho, ho] at this
      have e : upd s.heap s.used c s.used = c := by unfold upd; rw [if_pos rfl]
      simp only [e]
      exact this
  | again op r c x hp hc =>
    rw [hp] at het
    refine ⟨h.zero, h.fresh, old_step h.old (by intro _ _ _ _ e; cases e), each_step h.each ((List.append_nil (events t tr)).symm ▸ het), ?_⟩
    rw [points_append]
    exact (List.append_nil (points tr)).symm ▸ h.replay
  | back op r hp =>
    rw [hp] at het
    refine ⟨h.zero, h.fresh, old_step h.old (by intro _ _ _ _ e; cases e), each_step h.each (.back het), ?_⟩
    rw [points_append]
    exact (List.append_nil (points tr)).symm ▸ h.replay

theorem inv_exec {hash : K → BitVec 32} {tr : List (Tid × Ev K V)} {s : Sys K V} (h : Exec hash tr s) : Inv hash tr s := by
  induction h with
  | init => exact ⟨rfl, ⟨Nat.zero_lt_one, Nat.zero_lt_one⟩, (by intro _ _ _ _ _ e; cases e), fun _ => .nil, .nil⟩
  | step t e _ hs ih => exact inv_step ih hs

/-- **C93.** Whatever the threads do, and whatever the hash codes: every operation takes effect once, between its call and its return, with the
result that it returns, and the results and the content are those of the operations one after the other in that order. -/
theorem atomic {hash : K → BitVec 32} {tr : List (Tid × Ev K V)} {s : Sys K V} (h : Exec hash tr s) :
    (∀ t, ∃ ph, Each (events t tr) ph) ∧ Replay hash (points tr) (s.heap s.cur) :=
  ⟨fun t => ⟨_, (inv_exec h).each t⟩, (inv_exec h).replay⟩

/-- One operation alone does what it means. -/
theorem alone_ok {hash : K → BitVec 32} (hw : Window hash) (hi : ∀ k k', hash k = hash k' → k = k') {c : Content K V} {m : Map K V}
    (h : IsMap hash c m) (op : Op K V) :
    ∃ m', Meets m m' op (alone hash c op).2 ∧ IsMap hash (alone hash c op).1 m' := by
  cases op with
  | get k => exact ⟨m, ⟨get_ok hw h k, rfl⟩, h⟩
  | size => exact ⟨m, ⟨⟨_, entries_ok h⟩, rfl⟩, h⟩
  | iterate => exact ⟨m, ⟨(entries_ok h).1, rfl⟩, h⟩
  | put k v cond =>
    have := put_ok_partial hw h k v cond (fun k' _ e => hi k' k e)
    simp only [alone, look1, round]
    cases hp : putOnce hash c k v cond with
    | ret x => rw [hp] at this; exact ⟨m, ⟨this.1, this.2.symm⟩, h⟩
    | swap c' x => rw [hp] at this; exact ⟨_, ⟨this.1, rfl⟩, this.2⟩
    | exn e => rw [hp] at this; exact this.elim
  | remove k cond =>
    have := remove_ok hw h k cond
    simp only [alone, look1, round]
    cases hp : removeOnce hash c k cond with
    | ret x => rw [hp] at this; exact ⟨m, ⟨this.1, this.2.symm⟩, h⟩
    | swap c' x => rw [hp] at this; exact ⟨_, ⟨this.1, rfl⟩, this.2⟩
    | exn e => rw [hp] at this; exact this.elim
  | clear => exact ⟨_, rfl, empty_ok hash⟩

theorem replay_legal {hash : K → BitVec 32} (hw : Window hash) (hi : ∀ k k', hash k = hash k' → k = k') {l : List (Op K V × Res K V)}
    {c : Content K V} (h : Replay hash l c) : ∃ m, Legal l m ∧ IsMap hash c m := by
  induction h with
  | nil => exact ⟨_, .nil, empty_ok hash⟩
  | snoc op _ ih =>
    obtain ⟨m, hl, hm⟩ := ih
    obtain ⟨m', h1, h2⟩ := alone_ok hw hi hm op
    exact ⟨m', .snoc hl h1, h2⟩

/-- **C93.** If hash codes are different and near each other, the map is linearizable: there is an order of the operations, which
agrees with the order of calls and returns, in which they are those of a map one after the other. -/
theorem linearizable_partial {hash : K → BitVec 32} (hw : Window hash) (hi : ∀ k k', hash k = hash k' → k = k')
    {tr : List (Tid × Ev K V)} {s : Sys K V} (h : Exec hash tr s) :
    (∀ t, ∃ ph, Each (events t tr) ph) ∧ ∃ m, Legal (points tr) m ∧ IsMap hash (s.heap s.cur) m := by
  obtain ⟨h1, h2⟩ := atomic h
  exact ⟨h1, replay_legal hw hi h2⟩

/-! ### Disagreements -/

/-- Puts one after the other. -/
def putAll (l : List (BitVec 32)) : Content (BitVec 32) Nat :=
  l.foldl (fun c k => (alone id c (.put k 1 .always)).1) empty

/-- **C93, a disagreement.** Of eight keys with eight hash codes that are far apart, one is lost. -/
theorem far_apart_wrong :
    find id (putAll [0x40000000, 0xb0000000, 0x20000000, 0x10000000, 0xd0000000, 0xc0000000, 0xf0000000, 0xe0000000]) 0xb0000000 = none ∧
      (putAll [0x40000000, 0xb0000000, 0x20000000, 0x10000000, 0xd0000000, 0xc0000000, 0xf0000000, 0xe0000000]).size = 8 := by
  constructor <;> decide +kernel

/-- **C93, a disagreement.** `keySet().contains` throws for a key that is not there. -/
theorem contains_wrong {hash : K → BitVec 32} (hw : Window hash) {c : Content K V} {m : Map K V} (h : IsMap hash c m) (k : K) :
    keySetContains hash c k = if m k = none then .error .nullPointer else .ok true := by
  unfold keySetContains
  rw [get_ok hw h]
  cases m k <;> simp

/-! ### Cases -/

def small (k : BitVec 8) : BitVec 32 := k.setWidth 32

theorem small_window : Window small := by
  refine ⟨0, fun k => ?_⟩
  have : (small k).toNat = k.toNat := by unfold small; rw [BitVec.toNat_setWidth]; omega
  rw [BitVec.toInt_eq_toNat_cond, this]
  have := k.isLt
  split <;> omega

theorem small_inj : ∀ k k', small k = small k' → k = k' := by
  intro k k' h
  have := congrArg BitVec.toNat h
  simp only [small, BitVec.toNat_setWidth] at this
  exact BitVec.eq_of_toNat_eq (by omega)

/-- The hypotheses of `put_ok_partial` and `remove_ok` hold for a map with two entries. -/
example : ∃ c m, IsMap small c m ∧ Alone small m 9#8 ∧ m 5#8 = some 1 ∧ m 7#8 = some 2 := by
  have h0 := empty_ok (V := Nat) small
  obtain ⟨m1, e1, h1⟩ := alone_ok small_window small_inj h0 (.put 5#8 1 .always)
  obtain ⟨m2, e2, h2⟩ := alone_ok small_window small_inj h1 (.put 7#8 2 .ifAbsent)
  refine ⟨_, m2, h2, fun k' _ e => small_inj _ _ e, ?_, ?_⟩
  · rw [← get_ok small_window h2]; decide +kernel
  · rw [← get_ok small_window h2]; decide +kernel

/-- `put_collision_wrong` on two keys with the hash code 0. -/
example : ∃ c m, IsMap (fun _ : Bool => 0#32) c m ∧ m true = some 1 ∧ m false = none ∧ Window (fun _ : Bool => 0#32) := by
  have hw : Window (fun _ : Bool => 0#32) := ⟨0, fun x => by cases x <;> decide⟩
  have := put_ok_partial hw (empty_ok (V := Nat) (fun _ : Bool => 0#32)) true 1 .always (fun _ h => absurd rfl h)
  have e : ∃ c, putOnce (fun _ : Bool => 0#32) (empty : Content Bool Nat) true 1 .always = .swap c none ∧
      find (fun _ : Bool => 0#32) c true = some 1 ∧ find (fun _ : Bool => 0#32) c false = none := by
    refine ⟨⟨⟨.node false .leaf ⟨0, [(true, 1)]⟩ .leaf, 1⟩, 1⟩, ?_⟩
    decide +kernel
  obtain ⟨c, e1, e2, e3⟩ := e
  rw [e1] at this
  exact ⟨c, _, this.2, by rw [← get_ok hw this.2]; exact e2, by rw [← get_ok hw this.2]; exact e3, hw⟩

/-- Two threads put at the same time; the second has to do another round. -/
example : ∃ tr s, Exec (V := Nat) small tr s ∧
    points tr = [(.put 7#8 2 .always, .val none), (.put 5#8 1 .always, .val none), (.get 7#8, .val (some 2))] := by
  have r0 : ∃ c, round small (empty : Content (BitVec 8) Nat) (.put 5#8 1 .always) = some (.swap c none) :=
    ⟨⟨⟨.node false .leaf ⟨5, [(5, 1)]⟩ .leaf, 1⟩, 1⟩, by decide +kernel⟩
  have r1 : round small (empty : Content (BitVec 8) Nat) (.put 7#8 2 .always) =
      some (.swap ⟨⟨.node false .leaf ⟨7, [(7, 2)]⟩ .leaf, 1⟩, 1⟩ none) := by decide +kernel
  have r2 : round small (⟨⟨.node false .leaf ⟨7, [(7, 2)]⟩ .leaf, 1⟩, 1⟩ : Content (BitVec 8) Nat) (.put 5#8 1 .always) =
      some (.swap ⟨⟨.node false (.node true .leaf ⟨5, [(5, 1)]⟩ .leaf) ⟨7, [(7, 2)]⟩ .leaf, 2⟩, 2⟩ none) := by decide +kernel
  have r3 : find small (⟨⟨.node false (.node true .leaf ⟨5, [(5, 1)]⟩ .leaf) ⟨7, [(7, 2)]⟩ .leaf, 2⟩, 2⟩ : Content (BitVec 8) Nat) 7#8 =
      some 2 := by decide +kernel
  obtain ⟨c, r0⟩ := r0
  have e0 := Exec.init (hash := small) (V := Nat)
  have e1 := Exec.step 1 _ e0 (.call (.put 5#8 1 .always) rfl)
  have e2 := Exec.step 2 _ e1 (.call (.put 7#8 2 .always) rfl)
  have e3 := Exec.step 1 _ e2 (.begin (.put 5#8 1 .always) c none rfl r0)
  have e4 := Exec.step 2 _ e3 (.begin (.put 7#8 2 .always) _ none rfl r1)
  have e5 := Exec.step 2 _ e4 (.swap (.put 7#8 2 .always) _ _ none rfl rfl)
  have e6 := Exec.step 1 _ e5 (.again (.put 5#8 1 .always) _ _ none rfl Nat.one_ne_zero)
  have e7 := Exec.step 1 _ e6 (.begin (.put 5#8 1 .always) _ none rfl r2)
  have e8 := Exec.step 1 _ e7 (.swap (.put 5#8 1 .always) _ _ none rfl rfl)
  have e9 := Exec.step 1 _ e8 (.back (.put 5#8 1 .always) _ rfl)
  have e10 := Exec.step 1 _ e9 (.call (.get 7#8) rfl)
  have e11 := Exec.step 1 _ e10 (.look (.get 7#8) (.val (some 2)) rfl (congrArg (fun x => some (Res.val x)) r3))
  exact ⟨_, _, e11, rfl⟩

end Avian.ConcurrentMap
