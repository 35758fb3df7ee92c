import Verif.Lib.TreeSet
import Verif.Props.PersistentSet

/-
C82: sorted sets and maps: what is put in is found, in order; iterators.
-/
namespace Avian.TreeSet

open Avian.PersistentSet (PSet Path Exn Order Sorted putSpec eraseSpec findSpec Rep At)

variable {α : Type}

/-! ### Sets -/

theorem find_ok {cmp : α → α → Int} (o : Order cmp) {s : PSet α} {l : List α} (h : Rep cmp s l) (v : α) :
    find cmp s v = findSpec cmp v l := by
  unfold find
  simp only
  rw [PersistentSet.find_spec o h v]

/-- `contains` tells whether there is an equal element. -/
theorem contains_ok {cmp : α → α → Int} (o : Order cmp) {s : PSet α} {l : List α} (h : Rep cmp s l) (v : α) :
    contains cmp s v = true ↔ ∃ x ∈ l, cmp v x = 0 := by
  have e : contains cmp s v = (findSpec cmp v l).isSome := by
    rw [PersistentSet.find_spec o h v]
    unfold contains
    cases (PersistentSet.find cmp s v).fresh <;> rfl
  rw [e]
  unfold findSpec
  rw [List.find?_isSome]
  simp only [decide_eq_true_eq]

/-- `add` adds a value unless there is an equal one, and says so. -/
theorem add_ok {cmp : α → α → Int} (o : Order cmp) {s : PSet α} {l : List α} (h : Rep cmp s l) (v : α) :
    ∃ s', add cmp s v = .ok (s', (findSpec cmp v l).isNone) ∧
      Rep cmp s' (if (findSpec cmp v l).isSome then l else putSpec cmp v l) := by
  have hsp := PersistentSet.find_spec o h v
  unfold add
  simp only
  cases hf : (PersistentSet.find cmp s v).fresh with
  | true =>
    rw [hf] at hsp
    obtain ⟨s', e, hr⟩ := PersistentSet.addPath_ok o h v hf
    rw [hsp, if_pos rfl]
    unfold PersistentSet.Path.add
    rw [if_pos hf, e]
    exact ⟨s', rfl, hr⟩
  | false =>
    rw [hf] at hsp
    rw [hsp, if_neg (by simp)]
    exact ⟨s, rfl, h⟩

/-- `addAndReplace` puts a value in the place of an equal one, which it returns. -/
theorem addAndReplace_ok {cmp : α → α → Int} (o : Order cmp) {s : PSet α} {l : List α} (h : Rep cmp s l) (v : α) :
    ∃ s', addAndReplace cmp s v = .ok (s', findSpec cmp v l) ∧ Rep cmp s' (putSpec cmp v l) := by
  have hsp := PersistentSet.find_spec o h v
  unfold addAndReplace
  simp only
  cases hf : (PersistentSet.find cmp s v).fresh with
  | true =>
    rw [hf] at hsp
    obtain ⟨s', e, hr⟩ := PersistentSet.addPath_ok o h v hf
    rw [hsp, if_pos rfl]
    unfold PersistentSet.Path.add
    rw [if_pos hf, e]
    exact ⟨s', rfl, hr⟩
  | false =>
    rw [hf] at hsp
    obtain ⟨s', e, hr⟩ := PersistentSet.replaceWith_ok o h v hf
    rw [hsp, if_neg (by simp), e]
    exact ⟨s', rfl, hr⟩

theorem erase_absent {cmp : α → α → Int} {l : List α} {v : α} (h : findSpec cmp v l = none) : eraseSpec cmp v l = l := by
  unfold findSpec at h
  rw [List.find?_eq_none] at h
  apply PersistentSet.filter_all
  intro x hx
  have := h x hx
  simpa using this

/-- `removeAndReturn` takes out the equal element, also the only one. -/
theorem removeAndReturn_ok {cmp : α → α → Int} (o : Order cmp) {s : PSet α} {l : List α} (h : Rep cmp s l) (v : α) :
    ∃ s', removeAndReturn cmp s v = .ok (s', findSpec cmp v l) ∧ Rep cmp s' (eraseSpec cmp v l) := by
  have hsp := PersistentSet.find_spec o h v
  have hpr := PersistentSet.path_remove_ok o h v
  unfold removeAndReturn
  simp only
  cases hf : (PersistentSet.find cmp s v).fresh with
  | true =>
    rw [hf] at hsp
    rw [if_pos rfl, hsp]
    exact ⟨s, rfl, by rw [erase_absent hsp]; exact h⟩
  | false =>
    rw [hf] at hsp
    rw [hsp] at hpr ⊢
    simp only [Bool.false_eq_true, if_false, Option.isSome_some, if_true] at hpr
    obtain ⟨s', e, hr⟩ := hpr
    rw [if_neg (by simp), e]
    exact ⟨s', rfl, hr⟩

theorem remove_ok {cmp : α → α → Int} (o : Order cmp) {s : PSet α} {l : List α} (h : Rep cmp s l) (v : α) :
    ∃ s', remove cmp s v = .ok (s', (findSpec cmp v l).isSome) ∧ Rep cmp s' (eraseSpec cmp v l) := by
  obtain ⟨s', e, hr⟩ := removeAndReturn_ok o h v
  unfold remove
  rw [e]
  exact ⟨s', rfl, hr⟩

/-- `first` and `last` of a set. -/
theorem ends_ok {cmp : α → α → Int} {s : PSet α} {l : List α} (h : Rep cmp s l) :
    first s = (match l.head? with | none => .error .noSuchElement | some x => .ok x) ∧
    last s = (match l.getLast? with | none => .error .noSuchElement | some x => .ok x) := by
  have hsz := h.size
  constructor
  · have hf := PersistentSet.first_ok h
    unfold first
    cases l with
    | nil => rw [if_pos (by simpa using hsz)]; rfl
    | cons x r =>
      rw [if_neg (by simp only [List.length_cons] at hsz; omega)]
      obtain ⟨p, hp, hat, _⟩ := hf
      rw [hp]
      simp only [List.head?_cons]
      rw [hat.here]
  · have hf := PersistentSet.last_ok h
    unfold last
    cases hl : PersistentSet.last s with
    | none =>
      rw [hl] at hf
      simp only at hf
      subst hf
      rw [if_pos (by simpa using hsz)]; rfl
    | some p =>
      rw [hl] at hf
      obtain ⟨a, x, e, hat, _⟩ := hf
      subst e
      rw [if_neg (by simp only [List.length_append, List.length_cons] at hsz; omega)]
      simp only [List.getLast?_append, List.getLast?_singleton, Option.some_or]
      rw [hat.here]

/-! ### Any use of a set -/

inductive Op (α : Type) where
  | add (v : α)
  | remove (v : α)
  | contains (v : α)
  | first
  | last
  | size
  | clear

/-- What an operation returns. -/
inductive Out (α : Type) where
  | bool (b : Bool)
  | elem (v : α)
  | int (n : Int)
  | unit
  | thrown (e : Exn)
  deriving DecidableEq

/-- One operation. -/
def step (cmp : α → α → Int) (s : PSet α) : Op α → PSet α × Out α
  | .add v => match add cmp s v with | .ok r => (r.1, .bool r.2) | .error e => (s, .thrown e)
  | .remove v => match remove cmp s v with | .ok r => (r.1, .bool r.2) | .error e => (s, .thrown e)
  | .contains v => (s, .bool (contains cmp s v))
  | .first => (s, match first s with | .ok v => .elem v | .error e => .thrown e)
  | .last => (s, match last s with | .ok v => .elem v | .error e => .thrown e)
  | .size => (s, .int s.size)
  | .clear => (PersistentSet.empty, .unit)

/-- One operation on the increasing list of the elements. -/
def stepSpec (cmp : α → α → Int) (l : List α) : Op α → List α × Out α
  | .add v => if l.any (fun x => cmp v x = 0) then (l, .bool false) else (putSpec cmp v l, .bool true)
  | .remove v => (eraseSpec cmp v l, .bool (l.any fun x => cmp v x = 0))
  | .contains v => (l, .bool (l.any fun x => cmp v x = 0))
  | .first => (l, match l.head? with | some x => .elem x | none => .thrown .noSuchElement)
  | .last => (l, match l.getLast? with | some x => .elem x | none => .thrown .noSuchElement)
  | .size => (l, .int l.length)
  | .clear => ([], .unit)

/-- The results of operations one after the other. -/
def outs {S : Type} (f : S → Op α → S × Out α) : S → List (Op α) → List (Out α)
  | _, [] => []
  | s, op :: ops => (f s op).2 :: outs f (f s op).1 ops

theorem findSpec_any (cmp : α → α → Int) (v : α) (l : List α) : (findSpec cmp v l).isSome = l.any (fun x => cmp v x = 0) := by
  unfold findSpec
  induction l with
  | nil => rfl
  | cons x r ih =>
    by_cases h : cmp v x = 0 <;> simp [List.find?_cons, h, ih]

theorem step_ok {cmp : α → α → Int} (o : Order cmp) {s : PSet α} {l : List α} (h : Rep cmp s l) (op : Op α) :
    Rep cmp (step cmp s op).1 (stepSpec cmp l op).1 ∧ (step cmp s op).2 = (stepSpec cmp l op).2 := by
  cases op with
  | add v =>
    obtain ⟨s', e, hr⟩ := add_ok o h v
    simp only [step, e, stepSpec]
    rw [← findSpec_any]
    cases hf : findSpec cmp v l with
    | none => rw [hf] at hr; exact ⟨hr, rfl⟩
    | some x => rw [hf] at hr; exact ⟨hr, rfl⟩
  | remove v =>
    obtain ⟨s', e, hr⟩ := remove_ok o h v
    simp only [step, e, stepSpec]
    rw [← findSpec_any]
    exact ⟨hr, rfl⟩
  | contains v =>
    refine ⟨h, ?_⟩
    simp only [step, stepSpec]
    rw [← findSpec_any]
    congr 1
    rw [PersistentSet.find_spec o h v]
    unfold contains
    cases (PersistentSet.find cmp s v).fresh <;> rfl
  | first =>
    refine ⟨h, ?_⟩
    simp only [step, stepSpec]
    rw [(ends_ok h).1]
    cases l.head? <;> rfl
  | last =>
    refine ⟨h, ?_⟩
    simp only [step, stepSpec]
    rw [(ends_ok h).2]
    cases l.getLast? <;> rfl
  | size => exact ⟨h, by simp only [step, stepSpec, h.size]⟩
  | clear => exact ⟨PersistentSet.empty_rep cmp, rfl⟩

/-- All results of any operations on a new set are those of a sorted list. -/
theorem run_ok {cmp : α → α → Int} (o : Order cmp) (ops : List (Op α)) :
    outs (step cmp) PersistentSet.empty ops = outs (stepSpec cmp) [] ops := by
  have key : ∀ (ops : List (Op α)) (s : PSet α) (l : List α), Rep cmp s l →
      outs (step cmp) s ops = outs (stepSpec cmp) l ops := by
    intro ops
    induction ops with
    | nil => intro s l _; rfl
    | cons op ops ih =>
      intro s l h
      obtain ⟨h1, h2⟩ := step_ok o h op
      rw [outs, outs, h2, ih _ _ h1]
  exact key ops _ _ (PersistentSet.empty_rep cmp)

example : outs (step PersistentSet.intCmp) PersistentSet.empty
    [.first, .add 3, .add 1, .add 3, .last, .remove 3, .contains 3, .remove 1, .size, .remove 1] =
    [.thrown .noSuchElement, .bool true, .bool true, .bool false, .elem 3, .bool true, .bool false, .bool true, .int 0, .bool false] := by
  decide +kernel

/-! ### Iterators -/

/-- The path stands at `v`; `a` was before, `b` is to come, in the direction of the iterator. -/
def AtDir (rev : Bool) (s : PSet α) (a : List α) (v : α) (b : List α) (p : Path α) : Prop :=
  if rev then At s b.reverse v a.reverse p else At s a v b p

/-- The elements in the direction of the iterator. -/
def dir (rev : Bool) (l : List α) : List α := if rev then l.reverse else l

theorem step_dir {rev : Bool} {s : PSet α} {a b : List α} {v : α} {p : Path α} (h : AtDir rev s a v b p) :
    match b with
    | [] => stepPath rev p = none
    | w :: b' => ∃ q, stepPath rev p = some q ∧ AtDir rev s (a ++ [v]) w b' q ∧ q.fresh = false := by
  unfold AtDir at h
  unfold stepPath
  cases rev with
  | false =>
    simp only [Bool.false_eq_true, if_false] at h ⊢
    have := PersistentSet.successor_ok h
    cases b with
    | nil => exact this
    | cons w b' =>
      obtain ⟨q, h1, h2, h3⟩ := this
      exact ⟨q, h1, by unfold AtDir; rw [if_neg (by simp)]; exact h2, h3⟩
  | true =>
    simp only [if_true] at h ⊢
    have := PersistentSet.predecessor_ok h
    cases hp : p.predecessor with
    | none =>
      rw [hp] at this
      simp only [List.reverse_eq_nil_iff] at this
      subst this
      rfl
    | some q =>
      rw [hp] at this
      obtain ⟨a', w, e, hat, hfr⟩ := this
      have e2 : b = w :: a'.reverse := by
        have := congrArg List.reverse e
        simpa using this
      subst e2
      refine ⟨q, rfl, ?_, hfr⟩
      unfold AtDir
      rw [if_pos rfl]
      simpa using hat

/-- What a user of an iterator sees: the elements given so far, those to come, the one that may be removed; `stuck` while
the path is still the one the iterator began with. -/
structure View (α : Type) where
  given : List α
  rest : List α
  last : Option α
  stuck : Bool

inductive ItOp where
  | hasNext
  | next
  | remove
  deriving DecidableEq

/-- One use of an iterator; `nullPointer` is thrown where a user would expect `NoSuchElementException`. -/
def viewStep (w : View α) : ItOp → Except Exn (View α × Out α)
  | .hasNext => .ok (w, .bool (!w.rest.isEmpty))
  | .next =>
    match w.rest with
    | [] => .error .nullPointer
    | x :: r => .ok (⟨w.given ++ [x], r, some x, w.stuck && w.given.isEmpty⟩, .elem x)
  | .remove =>
    match w.last with
    | none => .error .illegalState
    | some _ => if w.stuck then .error .illegalState else .ok (⟨w.given.dropLast, w.rest, none, false⟩, .unit)

/-- One use of the iterator of the model. -/
def itStep (cmp : α → α → Int) (c : PSet α × It α) : ItOp → Except Exn ((PSet α × It α) × Out α)
  | .hasNext => .ok (c, .bool c.2.hasNext)
  | .next => c.2.next.map fun r => ((c.1, r.2), .elem r.1)
  | .remove => (c.2.remove cmp).map fun r => (r, .unit)

/-- The iterator and the set are as the user sees them. -/
structure Inv (cmp : α → α → Int) (rev : Bool) (s : PSet α) (it : It α) (w : View α) : Prop where
  rep : Rep cmp s (dir rev (w.given ++ w.rest))
  dirn : it.reversed = rev
  can : it.canRemove = w.last.isSome
  /-- nothing given yet, or the last one removed: the path is at the next element -/
  cell : ∀ v, it.cell = some v → w.last = none ∧ ∃ p b, it.path = some p ∧ w.rest = v :: b ∧ AtDir rev s w.given v b p ∧
    it.nextPath = stepPath rev p ∧ p.fresh = w.stuck ∧ (w.stuck = true → w.given = [])
  /-- the path is at the element given last -/
  given : it.cell = none → ∀ v, w.last = some v → ∃ p a, it.path = some p ∧ w.given = a ++ [v] ∧ AtDir rev s a v w.rest p ∧
    it.nextPath = stepPath rev p ∧ p.fresh = w.stuck
  /-- nothing is left -/
  gone : it.cell = none → w.last = none → w.rest = [] ∧ it.nextPath = none

theorem next_of {cmp : α → α → Int} {rev : Bool} {s : PSet α} {it : It α} {w : View α} (h : Inv cmp rev s it w)
    (hc : it.cell = none) :
    match w.rest with
    | [] => it.nextPath = none
    | x :: r => ∃ q, it.nextPath = some q ∧ AtDir rev s w.given x r q ∧ q.fresh = false := by
  cases hl : w.last with
  | none =>
    obtain ⟨h1, h2⟩ := h.gone hc hl
    rw [h1]; exact h2
  | some v =>
    obtain ⟨p, a, hp, hg, hat, hn, _⟩ := h.given hc v hl
    cases hr : w.rest with
    | nil =>
      rw [hr] at hat
      have := step_dir hat
      rw [← hn] at this; exact this
    | cons x r =>
      rw [hr] at hat
      have := step_dir hat
      rw [← hn] at this; rw [hg]; exact this

theorem atDir_value {rev : Bool} {s : PSet α} {a b : List α} {v : α} {p : Path α} (h : AtDir rev s a v b p) : p.v = v := by
  unfold AtDir at h
  cases rev with
  | false => exact h.here
  | true => exact h.here

theorem hasNext_ok {cmp : α → α → Int} {rev : Bool} {s : PSet α} {it : It α} {w : View α} (h : Inv cmp rev s it w) :
    it.hasNext = !w.rest.isEmpty := by
  unfold It.hasNext
  cases hc : it.cell with
  | some v =>
    obtain ⟨_, p, b, _, hr, _⟩ := h.cell v hc
    rw [hr]; rfl
  | none =>
    have := next_of h hc
    cases hr : w.rest with
    | nil => rw [hr] at this; rw [this]; rfl
    | cons x r => rw [hr] at this; obtain ⟨q, hq, _⟩ := this; rw [hq]; rfl

theorem next_ok {cmp : α → α → Int} {rev : Bool} {s : PSet α} {it : It α} {w : View α} (h : Inv cmp rev s it w) :
    match w.rest with
    | [] => it.next = .error .nullPointer
    | x :: r => ∃ it', it.next = .ok (x, it') ∧ Inv cmp rev s it' ⟨w.given ++ [x], r, some x, w.stuck && w.given.isEmpty⟩ := by
  unfold It.next
  cases hc : it.cell with
  | some v =>
    obtain ⟨hl, p, b, hp, hr, hat, hn, hf, hst⟩ := h.cell v hc
    rw [hr]
    simp only
    refine ⟨_, rfl, ?_⟩
    have hrep := h.rep
    rw [hr] at hrep
    have hst' : (w.stuck && w.given.isEmpty) = w.stuck := by
      cases hq : w.stuck with
      | false => rfl
      | true => rw [hst hq]; rfl
    refine ⟨by simpa using hrep, h.dirn, rfl, ?_, ?_, ?_⟩
    · intro v' hv'; cases hv'
    · intro _ v' hv'
      cases hv'
      exact ⟨p, w.given, hp, rfl, hat, hn, by rw [hst']; exact hf⟩
    · intro _ h'; cases h'
  | none =>
    have hnx := next_of h hc
    cases hr : w.rest with
    | nil => rw [hr] at hnx; simp only at hnx ⊢; rw [hnx]
    | cons x r =>
      rw [hr] at hnx
      obtain ⟨q, hq, hat, hf⟩ := hnx
      simp only
      rw [hq]
      have hrep := h.rep
      rw [hr] at hrep
      have hgiven : (w.stuck && w.given.isEmpty) = false := by
        cases hl : w.last with
        | none => have := (h.gone hc hl).1; rw [hr] at this; cases this
        | some v =>
          obtain ⟨p, a, hp, hg, _⟩ := h.given hc v hl
          rw [hg]; simp
      simp only
      refine ⟨_, by rw [atDir_value hat], ?_⟩
      refine ⟨by simpa using hrep, h.dirn, rfl, ?_, ?_, ?_⟩
      · intro v' hv'; cases hv'
      · intro _ v' hv'
        cases hv'
        refine ⟨q, w.given, rfl, rfl, hat, ?_, ?_⟩
        · show stepPath it.reversed q = _; rw [h.dirn]
        · show q.fresh = _; rw [hgiven]; exact hf
      · intro _ h'; cases h'

/-- An element of a set is found where it is. -/
theorem find_at {cmp : α → α → Int} (o : Order cmp) {s : PSet α} {a b : List α} {v : α} (h : Rep cmp s (a ++ v :: b)) :
    At s a v b (PersistentSet.find cmp s v) ∧ (PersistentSet.find cmp s v).fresh = false := by
  have hvv : cmp v v = 0 := by have := o.flip v v; omega
  have hb := PersistentSet.eq_only o h.sorted hvv
  have hsp := PersistentSet.find_spec o h v
  rw [PersistentSet.findSpec_hit hb.1 hvv] at hsp
  have hfo := PersistentSet.find_ok o h v
  cases hf : (PersistentSet.find cmp s v).fresh with
  | true => rw [hf] at hsp; simp at hsp
  | false =>
    rw [hf] at hsp
    simp only [Bool.false_eq_true, if_false, Option.some.injEq] at hsp
    obtain ⟨e, hv, hg, hsz⟩ := PersistentSet.find_hit o h v hf
    obtain ⟨e0, _, _⟩ := hfo.hit hf
    have hcount := hfo.count
    generalize PersistentSet.find cmp s v = q at *
    -- the place of an element in a sorted list is unique
    have huniq : ∀ (a a' b b' : List α), Sorted cmp (a ++ v :: b) → a ++ v :: b = a' ++ v :: b' → a = a' ∧ b = b' := by
      intro a
      induction a with
      | nil =>
        intro a' b b' hs he
        cases a' with
        | nil => simp at he; exact ⟨rfl, he⟩
        | cons y a' =>
          simp only [List.nil_append, List.cons_append, List.cons.injEq] at he
          have h1 := (PersistentSet.sorted_node (l := []) hs).2.2.2.1 v (by rw [he.2]; simp)
          omega
      | cons y a ih =>
        intro a' b b' hs he
        cases a' with
        | nil =>
          simp only [List.nil_append, List.cons_append, List.cons.injEq] at he
          have h1 := (PersistentSet.sorted_node (l := []) hs).2.2.2.1 v (by simp)
          rw [he.1] at h1
          omega
        | cons z a' =>
          simp only [List.cons_append, List.cons.injEq] at he
          have hs' : Sorted cmp (a ++ v :: b) := (List.pairwise_cons.1 hs).2
          obtain ⟨h1, h2⟩ := ih a' b b' hs' he.2
          exact ⟨by rw [he.1, h1], h2⟩
    rw [← hsp] at e
    obtain ⟨h1, h2⟩ := huniq a q.before b q.after h.sorted e
    refine ⟨⟨hsp.symm, h1.symm, h2.symm, ?_, hg⟩, rfl⟩
    unfold Path.root
    rw [e0, hcount]

theorem remove_it_ok {cmp : α → α → Int} (o : Order cmp) {rev : Bool} {s : PSet α} {it : It α} {w : View α} (h : Inv cmp rev s it w) :
    match w.last with
    | none => it.remove cmp = .error .illegalState
    | some _ => if w.stuck then it.remove cmp = .error .illegalState else
        ∃ s' it', it.remove cmp = .ok (s', it') ∧ Inv cmp rev s' it' ⟨w.given.dropLast, w.rest, none, false⟩ := by
  unfold It.remove
  cases hl : w.last with
  | none =>
    have := h.can
    rw [hl] at this
    simp only
    rw [if_pos (by rw [this]; rfl)]
  | some v =>
    have hcan := h.can
    rw [hl] at hcan
    have hcell : it.cell = none := by
      cases hc : it.cell with
      | none => rfl
      | some x => have := (h.cell x hc).1; rw [hl] at this; cases this
    obtain ⟨p, a, hp, hg, hat, hn, hf⟩ := h.given hcell v hl
    have hnx := next_of h hcell
    simp only
    rw [hcan, hp]
    simp only [Option.isSome_some, Bool.not_true, Bool.false_eq_true, if_false]
    unfold PersistentSet.Path.remove
    rw [hf]
    cases hst : w.stuck with
    | true =>
      simp only [if_true]
      rfl
    | false =>
      simp only [Bool.false_eq_true, if_false]
      have hrep := h.rep
      rw [hg] at hrep
      -- removal from the set
      have hrem : ∃ s', PersistentSet.removePath true p = .ok s' ∧ Rep cmp s' (dir rev (a ++ w.rest)) := by
        unfold AtDir at hat
        unfold dir at hrep ⊢
        cases rev with
        | false =>
          simp only [Bool.false_eq_true, if_false] at hat hrep ⊢
          have hs := hrep.sorted
          have hsz := hrep.size
          have e : a ++ [v] ++ w.rest = p.before ++ p.v :: p.after := by
            rw [hat.before, hat.here, hat.after]; simp
          rw [e] at hs hsz
          have := PersistentSet.removePath_ok (cmp := cmp) true p hs hat.good
            (by rw [← hsz, ← hat.root]; rfl) (Or.inl rfl)
          rw [hat.before, hat.after] at this
          exact this
        | true =>
          simp only [if_true] at hat hrep ⊢
          have hs := hrep.sorted
          have hsz := hrep.size
          have e : (a ++ [v] ++ w.rest).reverse = p.before ++ p.v :: p.after := by
            rw [hat.before, hat.here, hat.after]; simp
          rw [e] at hs hsz
          have := PersistentSet.removePath_ok (cmp := cmp) true p hs hat.good
            (by rw [← hsz, ← hat.root]; rfl) (Or.inl rfl)
          rw [hat.before, hat.after] at this
          simpa using this
      obtain ⟨s', hs', hrep'⟩ := hrem
      rw [hs']
      simp only [Except.bind]
      have hgd : w.given.dropLast = a := by rw [hg]; simp
      cases hr : w.rest with
      | nil =>
        rw [hr] at hnx
        simp only at hnx
        rw [hnx]
        refine ⟨s', _, rfl, ?_⟩
        refine ⟨by rw [hgd, ← hr]; exact hrep', h.dirn, rfl, ?_, ?_, ?_⟩
        · intro x hx; exact absurd hx (by show it.cell ≠ some x; rw [hcell]; simp)
        · intro _ x hx; cases hx
        · intro _ _; exact ⟨rfl, rfl⟩
      | cons x r =>
        rw [hr] at hnx hrep'
        obtain ⟨q, hq, hqat, _⟩ := hnx
        rw [hq]
        have hqv := atDir_value hqat
        simp only
        rw [hqv]
        have hfa : AtDir rev s' a x r (PersistentSet.find cmp s' x) ∧ (PersistentSet.find cmp s' x).fresh = false := by
          unfold dir at hrep'
          unfold AtDir
          cases rev with
          | false =>
            simp only [Bool.false_eq_true, if_false] at hrep' ⊢
            exact find_at o hrep'
          | true =>
            simp only [if_true] at hrep' ⊢
            apply find_at o
            simpa using hrep'
        refine ⟨s', _, rfl, ?_⟩
        refine ⟨by rw [hgd]; exact hrep', h.dirn, rfl, ?_, ?_, ?_⟩
        · intro y hy
          cases hy
          refine ⟨rfl, _, r, rfl, rfl, ?_, ?_, hfa.2, ?_⟩
          · show AtDir rev s' w.given.dropLast x r _
            rw [hgd]; exact hfa.1
          · show stepPath it.reversed _ = _
            rw [h.dirn]
          · intro h'; cases h'
        · intro h'; cases h'
        · intro h'; cases h'

theorem iterator_inv {cmp : α → α → Int} {s : PSet α} {l : List α} (h : Rep cmp s l) (rev : Bool) :
    Inv cmp rev s (iterator s rev) ⟨[], dir rev l, none, true⟩ := by
  have hdd : dir rev (dir rev l) = l := by unfold dir; cases rev <;> simp
  unfold iterator
  cases rev with
  | false =>
    simp only [Bool.false_eq_true, if_false]
    have hf := PersistentSet.first_ok h
    cases l with
    | nil =>
      rw [hf]
      refine ⟨by simpa [dir] using h, rfl, rfl, ?_, ?_, ?_⟩
      · intro v hv; cases hv
      · intro _ v hv; cases hv
      · intro _ _; exact ⟨rfl, rfl⟩
    | cons x r =>
      obtain ⟨p, hp, hat, hfr⟩ := hf
      rw [hp]
      refine ⟨by simpa [dir] using h, rfl, rfl, ?_, ?_, ?_⟩
      · intro v hv
        simp only [Option.some.injEq] at hv
        rw [hat.here] at hv
        subst hv
        exact ⟨rfl, p, r, rfl, rfl, hat, rfl, hfr, fun _ => rfl⟩
      · intro h'; cases h'
      · intro h'; cases h'
  | true =>
    simp only [if_true]
    have hf := PersistentSet.last_ok h
    cases hl : PersistentSet.last s with
    | none =>
      rw [hl] at hf
      simp only at hf
      subst hf
      refine ⟨by simpa [dir] using h, rfl, rfl, ?_, ?_, ?_⟩
      · intro v hv; cases hv
      · intro _ v hv; cases hv
      · intro _ _; exact ⟨rfl, rfl⟩
    | some p =>
      rw [hl] at hf
      obtain ⟨a, x, e, hat, hfr⟩ := hf
      subst e
      simp only
      refine ⟨by simpa [dir] using h, rfl, rfl, ?_, ?_, ?_⟩
      · intro v hv
        simp only [Option.some.injEq] at hv
        rw [hat.here] at hv
        subst hv
        refine ⟨rfl, p, a.reverse, rfl, by simp [dir], ?_, rfl, hfr, fun _ => rfl⟩
        unfold AtDir
        simpa using hat
      · intro h'; cases h'
      · intro h'; cases h'

/-- The results of uses of an iterator up to the first exception, and the state in the end. -/
def itRun {S : Type} (f : S → ItOp → Except Exn (S × Out α)) : S → List ItOp → List (Out α) × S
  | s, [] => ([], s)
  | s, op :: ops =>
    match f s op with
    | .error e => ([.thrown e], s)
    | .ok r => (r.2 :: (itRun f r.1 ops).1, (itRun f r.1 ops).2)

/-- Iterators in both directions give what they should, and removing through them takes out the element given last,
except for the very first one. -/
theorem iterator_partial {cmp : α → α → Int} (o : Order cmp) {s : PSet α} {l : List α} (h : Rep cmp s l) (rev : Bool)
    (ops : List ItOp) :
    let r := itRun (itStep cmp) (s, iterator s rev) ops
    let v := itRun viewStep ⟨[], dir rev l, none, true⟩ ops
    r.1 = v.1 ∧ Rep cmp r.2.1 (dir rev (v.2.given ++ v.2.rest)) := by
  have key : ∀ (ops : List ItOp) (s : PSet α) (it : It α) (w : View α), Inv cmp rev s it w →
      (itRun (itStep cmp) (s, it) ops).1 = (itRun viewStep w ops).1 ∧
      Rep cmp (itRun (itStep cmp) (s, it) ops).2.1
        (dir rev ((itRun viewStep w ops).2.given ++ (itRun viewStep w ops).2.rest)) := by
    intro ops
    induction ops with
    | nil => intro s it w hi; exact ⟨rfl, hi.rep⟩
    | cons op ops ih =>
      intro s it w hi
      cases op with
      | hasNext =>
        simp only [itRun, itStep, viewStep]
        rw [hasNext_ok hi]
        obtain ⟨h1, h2⟩ := ih s it w hi
        exact ⟨by rw [h1], h2⟩
      | next =>
        have hn := next_ok hi
        simp only [itRun, itStep, viewStep]
        cases hr : w.rest with
        | nil =>
          rw [hr] at hn
          simp only at hn ⊢
          rw [hn]
          simp only [Except.map]
          exact ⟨trivial, hi.rep⟩
        | cons x r =>
          rw [hr] at hn
          obtain ⟨it', e, hi'⟩ := hn
          simp only
          rw [e]
          simp only [Except.map]
          obtain ⟨h1, h2⟩ := ih s it' _ hi'
          exact ⟨by rw [h1], h2⟩
      | remove =>
        have hn := remove_it_ok o hi
        simp only [itRun, itStep, viewStep]
        cases hl : w.last with
        | none =>
          rw [hl] at hn
          simp only at hn ⊢
          rw [hn]
          simp only [Except.map]
          exact ⟨trivial, hi.rep⟩
        | some x =>
          rw [hl] at hn
          simp only at hn ⊢
          cases hst : w.stuck with
          | true =>
            rw [hst] at hn
            simp only [if_true] at hn ⊢
            rw [hn]
            simp only [Except.map]
            exact ⟨trivial, hi.rep⟩
          | false =>
            rw [hst] at hn
            simp only [Bool.false_eq_true, if_false] at hn ⊢
            obtain ⟨s', it', e, hi'⟩ := hn
            rw [e]
            simp only [Except.map]
            obtain ⟨h1, h2⟩ := ih s' it' _ hi'
            exact ⟨by rw [h1], h2⟩
  exact key ops s _ _ (iterator_inv h rev)

/-- Removing the first element an iterator gives always fails. -/
theorem remove_first_fails {cmp : α → α → Int} (o : Order cmp) {s : PSet α} {l : List α} (h : Rep cmp s l) (rev : Bool)
    (hl : l ≠ []) : ((itRun (itStep cmp) (s, iterator s rev) [.next, .remove]).1.getLast?) = some (.thrown .illegalState) := by
  have := (iterator_partial o h rev [.next, .remove]).1
  rw [this]
  have hd : dir rev l ≠ [] := by unfold dir; cases rev <;> simp [hl]
  cases hx : dir rev l with
  | nil => exact absurd hx hd
  | cons x r => rfl

/-- An iterator at the end throws the exception for null pointers. -/
theorem next_at_end {cmp : α → α → Int} (o : Order cmp) {s : PSet α} (h : Rep cmp s ([] : List α)) (rev : Bool) :
    (itRun (itStep cmp) (s, iterator s rev) [.next]).1 = [.thrown .nullPointer] := by
  have := (iterator_partial o h rev [.next]).1
  rw [this]
  cases rev <;> rfl

example : (itRun (itStep PersistentSet.intCmp) (PersistentSet.demo, iterator PersistentSet.demo false)
    [.next, .next, .remove, .hasNext, .next, .remove, .next, .remove, .next, .remove, .remove]).1 =
    [.elem 1, .elem 2, .unit, .bool true, .elem 3, .unit, .elem 4, .unit, .elem 5, .unit, .thrown .illegalState] := by decide +kernel
example : (itRun (itStep PersistentSet.intCmp) (PersistentSet.demo, iterator PersistentSet.demo true)
    [.next, .next, .remove, .next]).2.1.root.inorder = [1, 2, 3, 4, 5, 6, 7, 9] := by decide +kernel
example : (itRun (itStep PersistentSet.intCmp) (PersistentSet.demo, iterator PersistentSet.demo false)
    [.next, .remove]).1 = [.elem 1, .thrown .illegalState] := by decide +kernel

end Avian.TreeSet
