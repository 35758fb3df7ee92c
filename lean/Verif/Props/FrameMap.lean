import Verif.Codegen.FrameMap

/-
**C94.** The references in frames of compiled methods.

The specification is a program of marks, clears, branches, calls and exception handlers, and the sets of slots with references with
which control can arrive at a call.
-/
namespace Avian.FrameMap

variable {w : Nat}

/-! ### Specification -/

/-- What is done along one way through the method; `push` is a branch, which is followed first. -/
inductive Log where
  | nil
  | ip (n : Nat) (rest : Log)
  | mark (i : Nat) (rest : Log)
  | clear (i : Nat) (rest : Log)
  | trace (id at_ : Nat) (rest : Log)
  | push (branch rest : Log)

structure Handler where
  start : Nat
  stop : Nat
  body : Log

structure Program where
  main : Log
  handlers : List Handler

def Log.ips : Log → List Nat
  | .nil => []
  | .ip n r => n :: r.ips
  | .mark _ r => r.ips
  | .clear _ r => r.ips
  | .trace _ _ r => r.ips
  | .push b r => b.ips ++ r.ips

def Log.traces : Log → List (Nat × Nat)
  | .nil => []
  | .ip _ r => r.traces
  | .mark _ r => r.traces
  | .clear _ r => r.traces
  | .trace id a r => (id, a) :: r.traces
  | .push b r => b.traces ++ r.traces

/-- The log says that control goes on with `rest` after instruction `n`. -/
inductive Log.Inside (n : Nat) (rest : Log) : Log → Prop where
  | here : Log.Inside n rest (.ip n rest)
  | ip {m : Nat} {l : Log} : Log.Inside n rest l → Log.Inside n rest (.ip m l)
  | mark {i : Nat} {l : Log} : Log.Inside n rest l → Log.Inside n rest (.mark i l)
  | clear {i : Nat} {l : Log} : Log.Inside n rest l → Log.Inside n rest (.clear i l)
  | trace {i a : Nat} {l : Log} : Log.Inside n rest l → Log.Inside n rest (.trace i a l)
  | branch {b l : Log} : Log.Inside n rest b → Log.Inside n rest (.push b l)
  | next {b l : Log} : Log.Inside n rest l → Log.Inside n rest (.push b l)

def Program.logs (p : Program) : List Log := p.main :: p.handlers.map (·.body)

def Program.traces (p : Program) : List (Nat × Nat) := p.logs.flatMap Log.traces

/-- Where control can be. -/
inductive Place where
  | ip (n : Nat)
  | trace (id : Nat)

/-- From the beginning of a log with the references `b` to a place with the references `b'`, without a jump. -/
inductive Reaches : Log → BitVec w → Place → BitVec w → Prop where
  | ipHere {n : Nat} {l : Log} {b : BitVec w} : Reaches (.ip n l) b (.ip n) b
  | ip {n : Nat} {l : Log} {b b' : BitVec w} {o : Place} : Reaches l b o b' → Reaches (.ip n l) b o b'
  | mark {i : Nat} {l : Log} {b b' : BitVec w} {o : Place} : Reaches l (markBit b i) o b' → Reaches (.mark i l) b o b'
  | clear {i : Nat} {l : Log} {b b' : BitVec w} {o : Place} : Reaches l (clearBit b i) o b' → Reaches (.clear i l) b o b'
  | traceHere {i a : Nat} {l : Log} {b : BitVec w} : Reaches (.trace i a l) b (.trace i) b
  | trace {i a : Nat} {l : Log} {b b' : BitVec w} {o : Place} : Reaches l b o b' → Reaches (.trace i a l) b o b'
  | branch {c l : Log} {b b' : BitVec w} {o : Place} : Reaches c b o b' → Reaches (.push c l) b o b'
  | next {c l : Log} {b b' : BitVec w} {o : Place} : Reaches l b o b' → Reaches (.push c l) b o b'

/-- Control can arrive at a place with the references `b`: from the entry, by a jump to an instruction that is elsewhere in the log,
or by an exception in a call. -/
inductive Arrives (p : Program) : Place → BitVec w → Prop where
  | start {o : Place} {b : BitVec w} : Reaches p.main 0 o b → Arrives p o b
  | jump {n : Nat} {rest l : Log} {o : Place} {b b' : BitVec w} : Arrives p (.ip n) b → l ∈ p.logs → Log.Inside n rest l →
      Reaches rest b o b' → Arrives p o b'
  | throw {id a : Nat} {h : Handler} {o : Place} {b b' : BitVec w} : Arrives p (.trace id) b → (id, a) ∈ p.traces → h ∈ p.handlers →
      h.start ≤ a → a < h.stop → Reaches h.body b o b' → Arrives p o b'

/-! ### The events of a program -/

def Log.flat : Log → List Event
  | .nil => []
  | .ip n r => .ip n :: r.flat
  | .mark i r => .mark i :: r.flat
  | .clear i r => .clear i :: r.flat
  | .trace id a r => .trace id a :: r.flat
  | .push b r => .push :: (b.flat ++ .pop :: r.flat)

def Handler.flat (h : Handler) : List Event := .handler h.start h.stop :: (h.body.flat ++ [.pop])

def Program.jobs (p : Program) : List (List Event) := p.main.flat :: p.handlers.map Handler.flat

/-- An instruction that was met before is the last of its way. -/
def Seen : List Nat → Log → Prop
  | _, .nil => True
  | seen, .ip n r => (n ∈ seen → r = .nil) ∧ Seen (n :: seen) r
  | seen, .mark _ r => Seen seen r
  | seen, .clear _ r => Seen seen r
  | seen, .trace _ _ r => Seen seen r
  | seen, .push b r => Seen seen b ∧ Seen (b.ips ++ seen) r

def SeenAll : List Nat → List Log → Prop
  | _, [] => True
  | seen, l :: r => Seen seen l ∧ SeenAll (l.ips ++ seen) r

/-- The way ends with a jump to an instruction that was met before. -/
def EndsSeen : List Nat → Log → Prop
  | _, .nil => False
  | seen, .ip n .nil => n ∈ seen
  | seen, .ip n r => EndsSeen (n :: seen) r
  | seen, .mark _ r => EndsSeen seen r
  | seen, .clear _ r => EndsSeen seen r
  | seen, .trace _ _ r => EndsSeen seen r
  | seen, .push b r => EndsSeen (b.ips ++ seen) r

/-- How the compiler leaves events (4092-4096): an instruction is followed further only when it is met first; traces are different. -/
structure WF (p : Program) : Prop where
  seen : SeenAll [] p.logs
  nodup : (p.traces.map (·.1)).Nodup

/-! ### The analysis of a log -/

def Log.isNil : Log → Bool
  | .nil => true
  | _ => false

/-- The analysis on trees. -/
def run (c : Ctx) (last : Bool) : Log → BitVec w → St w → St w
  | .nil, _, s => s
  | .ip n l, r, s => run c last l (ipRoots c n r s) (ipState c n (last && l.isNil) r s)
  | .mark i l, r, s => run c last l (markBit r i) s
  | .clear i l, r, s => run c last l (clearBit r i) s
  | .trace id _ l, r, s => run c last l r (traceState id r s)
  | .push b l, r, s => run c last l r (run c true b r s)

theorem isEnd_flat (l : Log) (tail : List Event) :
    isEnd (l.flat ++ tail) = (isEnd tail && l.isNil) := by
  cases l <;> simp [Log.flat, isEnd, Log.isNil]

theorem calculate_run (c : Ctx) : ∀ (l : Log) (r : BitVec w) (s : St w) (tail : List Event) (f : Nat), (l.flat ++ tail).length < f →
    ∃ f' r', tail.length < f' ∧ calculate c f r (l.flat ++ tail) s = calculate c f' r' tail (run c (isEnd tail) l r s) := by
  intro l
  induction l with
  | nil => intro r s tail f hf; exact ⟨f, r, hf, rfl⟩
  | ip n l ih =>
    intro r s tail f hf
    obtain ⟨f, rfl⟩ : ∃ g, f = g + 1 := ⟨f - 1, by omega⟩
    have hf' : (l.flat ++ tail).length < f := by simp only [Log.flat, List.cons_append, List.length_cons] at hf; omega
    simp only [Log.flat, List.cons_append, calculate, run]
    rw [isEnd_flat]
    exact ih _ _ _ _ hf'
  | mark i l ih =>
    intro r s tail f hf
    obtain ⟨f, rfl⟩ : ∃ g, f = g + 1 := ⟨f - 1, by omega⟩
    have hf' : (l.flat ++ tail).length < f := by simp only [Log.flat, List.cons_append, List.length_cons] at hf; omega
    simp only [Log.flat, List.cons_append, calculate, run]
    exact ih _ _ _ _ hf'
  | clear i l ih =>
    intro r s tail f hf
    obtain ⟨f, rfl⟩ : ∃ g, f = g + 1 := ⟨f - 1, by omega⟩
    have hf' : (l.flat ++ tail).length < f := by simp only [Log.flat, List.cons_append, List.length_cons] at hf; omega
    simp only [Log.flat, List.cons_append, calculate, run]
    exact ih _ _ _ _ hf'
  | trace i a l ih =>
    intro r s tail f hf
    obtain ⟨f, rfl⟩ : ∃ g, f = g + 1 := ⟨f - 1, by omega⟩
    have hf' : (l.flat ++ tail).length < f := by simp only [Log.flat, List.cons_append, List.length_cons] at hf; omega
    simp only [Log.flat, List.cons_append, calculate, run]
    exact ih _ _ _ _ hf'
  | push b l ihb ihl =>
    intro r s tail f hf
    obtain ⟨f, rfl⟩ : ∃ g, f = g + 1 := ⟨f - 1, by omega⟩
    simp only [Log.flat, List.cons_append, List.append_assoc, List.length_cons, List.length_append] at hf
    have e : (Log.push b l).flat ++ tail = Event.push :: (b.flat ++ (.pop :: (l.flat ++ tail))) := by
      simp [Log.flat]
    rw [e]
    simp only [calculate, run]
    obtain ⟨f1, r1, h1, e1⟩ := ihb r s (.pop :: (l.flat ++ tail)) f (by
      simp only [List.length_append, List.length_cons]; omega)
    rw [e1]
    obtain ⟨f1, rfl⟩ : ∃ g, f1 = g + 1 := ⟨f1 - 1, by simp only [List.length_cons] at h1; omega⟩
    simp only [calculate, isEnd]
    exact ihl _ _ _ _ (by simp only [List.length_append]; omega)

/-- The analysis of an exception handler. -/
def runHandler (c : Ctx) (h : Handler) (s : St w) : St w :=
  run c true h.body (tryCatchRoots c h.start h.stop s) (tryCatchWatch c h.start h.stop s)

def runHandlers (c : Ctx) (hs : List Handler) (s : St w) : St w := hs.foldl (fun s h => runHandler c h s) s

theorem calculate_handlers (c : Ctx) : ∀ (hs : List Handler) (r : BitVec w) (s : St w) (f : Nat), ((hs.map Handler.flat).flatten).length < f →
    (calculate c f r (hs.map Handler.flat).flatten s).1 = runHandlers c hs s := by
  intro hs
  induction hs with
  | nil =>
    intro r s f hf
    obtain ⟨f, rfl⟩ : ∃ g, f = g + 1 := ⟨f - 1, by omega⟩
    rfl
  | cons h hs ih =>
    intro r s f hf
    obtain ⟨f, rfl⟩ : ∃ g, f = g + 1 := ⟨f - 1, by omega⟩
    have e : ((h :: hs).map Handler.flat).flatten = Event.handler h.start h.stop :: (h.body.flat ++ (.pop :: (hs.map Handler.flat).flatten)) := by
      simp [Handler.flat]
    rw [e] at hf ⊢
    simp only [List.length_cons, List.length_append] at hf
    simp only [calculate]
    obtain ⟨f1, r1, h1, e1⟩ := calculate_run c h.body (tryCatchRoots c h.start h.stop s) (tryCatchWatch c h.start h.stop s)
      (.pop :: (hs.map Handler.flat).flatten) f (by simp only [List.length_append, List.length_cons]; omega)
    rw [e1]
    obtain ⟨f1, rfl⟩ : ∃ g, f1 = g + 1 := ⟨f1 - 1, by simp only [List.length_cons] at h1; omega⟩
    simp only [calculate, isEnd]
    exact ih _ _ _ (by omega)

theorem pass_full (c : Ctx) (p : Program) (s : St w) :
    pass c p.jobs.flatten s = runHandlers c p.handlers (run c p.handlers.isEmpty p.main 0 s) := by
  unfold pass Program.jobs
  rw [List.flatten_cons]
  obtain ⟨f1, r1, h1, e1⟩ := calculate_run c p.main (0 : BitVec w) s (p.handlers.map Handler.flat).flatten _ (Nat.lt_succ_self _)
  rw [e1, calculate_handlers c _ _ _ _ h1]
  congr 1
  cases p.handlers with
  | nil => rfl
  | cons h hs => rfl

theorem pass_main (c : Ctx) (l : Log) (s : St w) : pass c l.flat s = run c true l 0 s := by
  unfold pass
  obtain ⟨f1, r1, h1, e1⟩ := calculate_run c l (0 : BitVec w) s [] _ (Nat.lt_succ_self _)
  simp only [List.append_nil] at e1
  rw [e1]
  obtain ⟨f1, rfl⟩ : ∃ g, f1 = g + 1 := ⟨f1 - 1, by omega⟩
  rfl

theorem pass_handler (c : Ctx) (h : Handler) (s : St w) : pass c h.flat s = runHandler c h s := by
  have := calculate_handlers c [h] (0 : BitVec w) s (h.flat.length + 1) (by simp)
  simp only [List.map_cons, List.map_nil, List.flatten_cons, List.flatten_nil, List.append_nil] at this
  exact this

/-! ### Sets of slots -/

/-- Every slot of `a` is one of `b`. -/
def Le (a b : BitVec w) : Prop := ∀ i, a.getLsbD i = true → b.getLsbD i = true

theorem Le.rfl {a : BitVec w} : Le a a := fun _ h => h

theorem Le.trans {a b c : BitVec w} (h1 : Le a b) (h2 : Le b c) : Le a c := fun i h => h2 i (h1 i h)

theorem and_le_right (a b : BitVec w) : Le (a &&& b) b := by
  intro i h; rw [BitVec.getLsbD_and] at h; simp at h; exact h.2

theorem and_le_left (a b : BitVec w) : Le (a &&& b) a := by
  intro i h; rw [BitVec.getLsbD_and] at h; simp at h; exact h.1

theorem mark_bit (r : BitVec w) (i j : Nat) (hj : j < w) : (markBit r i).getLsbD j = (r.getLsbD j || decide (j = i)) := by
  unfold markBit
  rw [BitVec.getLsbD_or, BitVec.getLsbD_shiftLeft]
  simp only [hj, decide_true, Bool.true_and]
  congr 1
  by_cases h1 : j = i
  · subst h1; simp; omega
  · by_cases h2 : j < i
    · simp [h2, h1]
    · have : j - i ≠ 0 := by omega
      simp [BitVec.getLsbD_one, h1, this]

theorem clear_bit (r : BitVec w) (i j : Nat) (hj : j < w) : (clearBit r i).getLsbD j = (r.getLsbD j && decide (j ≠ i)) := by
  have := mark_bit (0#w) i j hj
  unfold markBit at this
  unfold clearBit
  simp only [BitVec.zero_or, BitVec.getLsbD_zero, Bool.false_or] at this
  rw [BitVec.getLsbD_and, BitVec.getLsbD_not, this]
  by_cases h : j = i <;> simp [hj, h]

theorem mark_le {a b : BitVec w} (h : Le a b) (i : Nat) : Le (markBit a i) (markBit b i) := by
  intro j hj
  have hw : j < w := BitVec.lt_of_getLsbD hj
  rw [mark_bit _ _ _ hw] at *
  cases ha : a.getLsbD j with
  | true => rw [h j ha]; rfl
  | false => rw [ha] at hj; simp at hj; simp [hj]

theorem clear_le {a b : BitVec w} (h : Le a b) (i : Nat) : Le (clearBit a i) (clearBit b i) := by
  intro j hj
  have hw : j < w := BitVec.lt_of_getLsbD hj
  rw [clear_bit _ _ _ hw] at *
  simp only [Bool.and_eq_true] at hj ⊢
  exact ⟨h j hj.1, hj.2⟩

/-! ### Nothing is visited that is not a reference -/

/-- Tables and maps that agree with each other. -/
def Ok (T M : Nat → BitVec w) : Log → BitVec w → Prop
  | .nil, _ => True
  | .ip n l, r => Le (T n) r ∧ Ok T M l (T n)
  | .mark i l, r => Ok T M l (markBit r i)
  | .clear i l, r => Ok T M l (clearBit r i)
  | .trace id _ l, r => Le (M id) r ∧ Ok T M l r
  | .push b l, r => Ok T M b r ∧ Ok T M l r

/-- What the tables say about a place. -/
def Bound (T M : Nat → BitVec w) : Place → BitVec w → Prop
  | .ip n, b => Le (T n) b
  | .trace id, b => Le (M id) b

theorem reaches_bound {T M : Nat → BitVec w} {l : Log} {b b' : BitVec w} {o : Place} (h : Reaches l b o b') :
    ∀ r, Ok T M l r → Le r b → Bound T M o b' := by
  induction h with
  | ipHere => intro r ho hl; exact ho.1.trans hl
  | ip _ ih => intro r ho hl; exact ih _ ho.2 (ho.1.trans hl)
  | mark _ ih => intro r ho hl; exact ih _ ho (mark_le hl _)
  | clear _ ih => intro r ho hl; exact ih _ ho (clear_le hl _)
  | traceHere => intro r ho hl; exact ho.1.trans hl
  | trace _ ih => intro r ho hl; exact ih _ ho.2 hl
  | branch _ ih => intro r ho hl; exact ih _ ho.1 hl
  | next _ ih => intro r ho hl; exact ih _ ho.2 hl

theorem inside_ok {T M : Nat → BitVec w} {n : Nat} {rest l : Log} (h : Log.Inside n rest l) : ∀ r, Ok T M l r → Ok T M rest (T n) := by
  induction h with
  | here => intro r ho; exact ho.2
  | ip _ ih => intro r ho; exact ih _ ho.2
  | mark _ ih => intro r ho; exact ih _ ho
  | clear _ ih => intro r ho; exact ih _ ho
  | trace _ ih => intro r ho; exact ih _ ho.2
  | branch _ ih => intro r ho; exact ih _ ho.1
  | next _ ih => intro r ho; exact ih _ ho.2

/-- Tables and maps that agree with each other for the whole program. -/
structure OkAll (p : Program) (T M : Nat → BitVec w) : Prop where
  main : Ok T M p.main 0
  handlers : ∀ h ∈ p.handlers, ∃ r, Ok T M h.body r ∧ ∀ e ∈ p.traces, h.start ≤ e.2 → e.2 < h.stop → Le r (M e.1)

theorem arrives_bound {p : Program} {T M : Nat → BitVec w} (ok : OkAll p T M) {o : Place} {b : BitVec w} (h : Arrives p o b) : Bound T M o b := by
  induction h with
  | start hr => exact reaches_bound hr _ ok.main Le.rfl
  | @jump n rest l o b b' _ hl hi hr ih =>
    refine reaches_bound hr (T n) ?_ ih
    simp only [Program.logs, List.mem_cons, List.mem_map] at hl
    rcases hl with rfl | ⟨h, hh, rfl⟩
    · exact inside_ok hi _ ok.main
    · obtain ⟨r, h1, _⟩ := ok.handlers h hh
      exact inside_ok hi _ h1
  | @throw id a h o b b' _ ht hh h1 h2 hr ih =>
    obtain ⟨r, h3, h4⟩ := ok.handlers h hh
    exact reaches_bound hr r h3 ((h4 _ ht h1 h2).trans ih)

/-! ### What a pass leaves -/

def Log.ids (l : Log) : List Nat := l.traces.map (·.1)

structure Kept (seen : List Nat) (l : Log) (r : BitVec w) (s s' : St w) : Prop where
  clean : s.dirty = false
  table : ∀ n, n ∈ seen ∨ n ∉ l.ips → s'.table n = s.table n
  map : ∀ id, id ∉ l.ids ∨ s.watch id = true → s'.map id = s.map id
  watch : s'.watch = s.watch
  ok : ∀ T M : Nat → BitVec w, (∀ n ∈ l.ips, T n = s'.table n) → (∀ id ∈ l.ids, M id = s'.map id) → Ok T M l r

theorem upd_same {α : Type} (f : Nat → α) (n : Nat) (x : α) : upd f n x n = x := if_pos rfl

theorem upd_other {α : Type} (f : Nat → α) {n m : Nat} (x : α) (h : m ≠ n) : upd f n x m = f m := if_neg h

theorem run_kept (c : Ctx) : ∀ (l : Log) (last : Bool) (seen : List Nat) (r : BitVec w) (s : St w), Seen seen l → l.ids.Nodup →
    (∀ n, 1 < (seen ++ l.ips).count n → n ∈ l.ips → 1 < c.visits n) → (last = true ∨ ¬ EndsSeen seen l) → (run c last l r s).dirty = false →
    Kept seen l r s (run c last l r s) := by
  intro l
  induction l with
  | nil =>
    intro last seen r s _ _ _ _ hd
    exact ⟨hd, fun _ _ => rfl, fun _ _ => rfl, rfl, fun _ _ _ _ => trivial⟩
  | ip n l ih =>
    intro last seen r s hs hn hv he hd
    simp only [run] at hd ⊢
    have he' : last = true ∨ ¬ EndsSeen (n :: seen) l := by
      rcases he with he | he
      · exact Or.inl he
      · refine Or.inr fun h => he ?_
        cases l <;> first | exact h | exact h.elim
    have hv' : ∀ m, 1 < ((n :: seen) ++ l.ips).count m → m ∈ l.ips → 1 < c.visits m := by
      intro m hm hi
      refine hv m ?_ (by simp [Log.ips, hi])
      simp only [Log.ips, List.cons_append, List.count_cons, List.count_append] at hm ⊢
      omega
    have k := ih last (n :: seen) _ _ hs.2 hn hv' he' hd
    generalize run c last l (ipRoots c n r s) (ipState c n (last && l.isNil) r s) = s' at k hd ⊢
    have hc := k.clean
    simp only [ipState, Bool.or_eq_false_iff] at hc
    have htn : s'.table n = ipRoots c n r s := by
      rw [k.table n (Or.inl (by simp))]
      exact upd_same ..
    refine ⟨hc.1, ?_, ?_, ?_, ?_⟩
    · intro m hm
      by_cases hmn : m = n
      · subst hmn
        have hseen : m ∈ seen := by
          rcases hm with hm | hm
          · exact hm
          · exact absurd (by simp [Log.ips]) hm
        have hl := hs.1 hseen
        subst hl
        have hvis : 1 < c.visits m := by
          refine hv m ?_ (by simp [Log.ips])
          have := List.count_pos_iff.2 hseen
          simp only [Log.ips, List.count_append, List.count_cons_self]
          omega
        have hlast : last = true := by
          rcases he with he | he
          · exact he
          · exact absurd hseen he
        have h2 := hc.2
        subst hlast
        have h3 : ipRoots c m r s = s.table m := by
          simpa [hvis, Log.isNil] using h2
        rw [htn, h3]
      · have : m ∈ n :: seen ∨ m ∉ l.ips := by
          rcases hm with hm | hm
          · exact Or.inl (by simp [hm])
          · refine Or.inr fun h => hm ?_
            simp [Log.ips, h]
        rw [k.table m this]
        exact upd_other _ _ hmn
    · exact fun id h => k.map id h
    · exact k.watch
    · intro T M hT hM
      have e : T n = ipRoots c n r s := by rw [hT n (by simp [Log.ips]), htn]
      refine ⟨?_, ?_⟩
      · rw [e]
        unfold ipRoots
        by_cases hvis : c.visits n > 1
        · rw [if_pos hvis]; exact and_le_right _ _
        · rw [if_neg hvis]; exact Le.rfl
      · rw [e]
        exact k.ok T M (fun m hm => hT m (by simp [Log.ips, hm])) hM
  | mark i l ih =>
    intro last seen r s hs hn hv he hd
    have k := ih last seen (markBit r i) s hs hn hv he hd
    exact ⟨k.clean, k.table, k.map, k.watch, k.ok⟩
  | clear i l ih =>
    intro last seen r s hs hn hv he hd
    have k := ih last seen (clearBit r i) s hs hn hv he hd
    exact ⟨k.clean, k.table, k.map, k.watch, k.ok⟩
  | trace i a l ih =>
    intro last seen r s hs hn hv he hd
    have hn' := List.nodup_cons.1 (show (i :: l.ids).Nodup from hn)
    have k := ih last seen r (traceState i r s) hs hn'.2 hv he hd
    simp only [run] at hd ⊢
    generalize hs' : run c last l r (traceState i r s) = s' at k hd ⊢
    have hc := k.clean
    simp only [traceState, Bool.or_eq_false_iff] at hc
    have hmi : s'.map i = r := by
      rw [k.map i (Or.inl hn'.1)]
      exact upd_same ..
    refine ⟨hc.1, k.table, ?_, k.watch, ?_⟩
    · intro id hid
      by_cases hi : id = i
      · subst hi
        have hw : s.watch id = true := by
          rcases hid with hid | hid
          · exact absurd (by simp [Log.ids, Log.traces]) hid
          · exact hid
        rw [hmi]
        have := hc.2
        rw [hw] at this
        simp at this
        exact this.symm
      · have : id ∉ l.ids ∨ s.watch id = true := by
          rcases hid with hid | hid
          · refine Or.inl fun h => hid ?_
            exact List.mem_cons_of_mem _ h
          · exact Or.inr hid
        rw [k.map id this]
        exact upd_other _ _ hi
    · intro T M hT hM
      refine ⟨?_, ?_⟩
      · rw [hM i (by simp [Log.ids, Log.traces]), hmi]; exact Le.rfl
      · exact k.ok T M hT (fun id hid => hM id (List.mem_cons_of_mem _ hid))
  | push b l ihb ihl =>
    intro last seen r s hs hn hv he hd
    have hn' : (b.ids ++ l.ids).Nodup := by
      have : (Log.push b l).ids = b.ids ++ l.ids := by simp [Log.ids, Log.traces]
      rw [← this]; exact hn
    have hn2 := List.nodup_append.1 hn'
    have hvl : ∀ n, 1 < ((b.ips ++ seen) ++ l.ips).count n → n ∈ l.ips → 1 < c.visits n := by
      intro n h hi
      refine hv n ?_ (by simp [Log.ips, hi])
      simp only [Log.ips, List.count_append] at h ⊢
      omega
    have hvb : ∀ n, 1 < (seen ++ b.ips).count n → n ∈ b.ips → 1 < c.visits n := by
      intro n h hi
      refine hv n ?_ (by simp [Log.ips, hi])
      simp only [Log.ips, List.count_append] at h ⊢
      omega
    have k2 := ihl last (b.ips ++ seen) r (run c true b r s) hs.2 hn2.2.1 hvl he hd
    have k1 := ihb true seen r s hs.1 hn2.1 hvb (Or.inl rfl) k2.clean
    simp only [run] at hd ⊢
    generalize run c true b r s = s1 at k1 k2 hd ⊢
    generalize run c last l r s1 = s2 at k2 hd ⊢
    refine ⟨k1.clean, ?_, ?_, k2.watch.trans k1.watch, ?_⟩
    · intro n hn
      have h2 : n ∈ b.ips ++ seen ∨ n ∉ l.ips := by
        rcases hn with hn | hn
        · exact Or.inl (by simp [hn])
        · exact Or.inr fun h => hn (by simp [Log.ips, h])
      have h1 : n ∈ seen ∨ n ∉ b.ips := by
        rcases hn with hn | hn
        · exact Or.inl hn
        · exact Or.inr fun h => hn (by simp [Log.ips, h])
      rw [k2.table n h2, k1.table n h1]
    · intro id hid
      have h2 : id ∉ l.ids ∨ s1.watch id = true := by
        rcases hid with hid | hid
        · exact Or.inl fun h => hid (by simp only [Log.ids, Log.traces, List.map_append, List.mem_append]; exact Or.inr h)
        · exact Or.inr (by rw [k1.watch]; exact hid)
      have h1 : id ∉ b.ids ∨ s.watch id = true := by
        rcases hid with hid | hid
        · exact Or.inl fun h => hid (by simp only [Log.ids, Log.traces, List.map_append, List.mem_append]; exact Or.inl h)
        · exact Or.inr hid
      rw [k2.map id h2, k1.map id h1]
    · intro T M hT hM
      constructor
      · refine k1.ok T M (fun n hn => ?_) (fun id hid => ?_)
        · rw [hT n (by simp [Log.ips, hn]), k2.table n (Or.inl (by simp [hn]))]
        · have hno : id ∉ l.ids := fun h => hn2.2.2 id hid id h rfl
          rw [hM id (by simp only [Log.ids, Log.traces, List.map_append, List.mem_append]; exact Or.inl hid), k2.map id (Or.inl hno)]
      · exact k2.ok T M (fun n hn => hT n (by simp [Log.ips, hn]))
          (fun id hid => hM id (by simp only [Log.ids, Log.traces, List.map_append, List.mem_append]; exact Or.inr hid))

theorem fold_and (f : Nat × Nat → BitVec w) : ∀ (l : List (Nat × Nat)) (r : BitVec w) (i : Nat),
    (l.foldl (fun r e => r &&& f e) r).getLsbD i = (r.getLsbD i && l.all fun e => (f e).getLsbD i) := by
  intro l
  induction l with
  | nil => intro r i; simp
  | cons e l ih =>
    intro r i
    rw [List.foldl_cons, ih, BitVec.getLsbD_and, List.all_cons, Bool.and_assoc]

theorem roots_bit (c : Ctx) (a b : Nat) (s : St w) (i : Nat) (hi : i < w) :
    (tryCatchRoots c a b s).getLsbD i = (c.traces.filter (within a b)).all fun e => (s.map e.1).getLsbD i := by
  unfold tryCatchRoots
  rw [fold_and (fun e => s.map e.1), BitVec.getLsbD_allOnes]
  simp [hi]

theorem roots_le (c : Ctx) (a b : Nat) (s : St w) {e : Nat × Nat} (he : e ∈ c.traces) (hw : within a b e = true) :
    Le (tryCatchRoots c a b s) (s.map e.1) := by
  intro i hi
  have h := BitVec.lt_of_getLsbD hi
  rw [roots_bit _ _ _ _ _ h, List.all_eq_true] at hi
  exact hi e (List.mem_filter.2 ⟨he, hw⟩)

/-- Handlers one after the other, each with what the compiler knew. -/
def runList (hs : List (Ctx × Handler)) (s : St w) : St w := hs.foldl (fun s h => runHandler h.1 h.2 s) s

/-- Instructions that were met twice are known as such. -/
def Visited (c : Ctx) (seen : List Nat) (l : Log) : Prop := ∀ n, 1 < (seen ++ l.ips).count n → n ∈ l.ips → 1 < c.visits n

def VisitedAll : List Nat → List (Ctx × Handler) → Prop
  | _, [] => True
  | seen, h :: r => Visited h.1 seen h.2.body ∧ VisitedAll (h.2.body.ips ++ seen) r

structure KeptAll (seen : List Nat) (hs : List (Ctx × Handler)) (s s' : St w) : Prop where
  clean : s.dirty = false
  table : ∀ n ∈ seen, s'.table n = s.table n
  map : ∀ id, id ∉ hs.flatMap (·.2.body.ids) ∨ s.watch id = true → s'.map id = s.map id
  ok : ∀ T M : Nat → BitVec w, (∀ n ∈ hs.flatMap (·.2.body.ips), T n = s'.table n) → (∀ id ∈ hs.flatMap (·.2.body.ids), M id = s'.map id) →
    ∀ h ∈ hs, ∃ r, Ok T M h.2.body r ∧ ∀ e ∈ h.1.traces, within h.2.start h.2.stop e = true → Le r (s'.map e.1)

theorem runList_kept : ∀ (hs : List (Ctx × Handler)) (seen : List Nat) (s : St w), SeenAll seen (hs.map (·.2.body)) →
    (hs.flatMap (·.2.body.ids)).Nodup → VisitedAll seen hs → (runList hs s).dirty = false → KeptAll seen hs s (runList hs s) := by
  intro hs
  induction hs with
  | nil => intro seen s _ _ _ hd; exact ⟨hd, fun _ _ => rfl, fun _ _ => rfl, by simp⟩
  | cons h hs ih =>
    intro seen s hseen hn hv hd
    have hn2 := List.nodup_append.1 (show (h.2.body.ids ++ hs.flatMap (·.2.body.ids)).Nodup from hn)
    have k2 := ih (h.2.body.ips ++ seen) (runHandler h.1 h.2 s) hseen.2 hn2.2.1 hv.2 hd
    have k1 := run_kept h.1 h.2.body true seen (tryCatchRoots h.1 h.2.start h.2.stop s) (tryCatchWatch h.1 h.2.start h.2.stop s)
      hseen.1 hn2.1 hv.1 (Or.inl rfl) k2.clean
    change KeptAll seen (h :: hs) s (runList hs (runHandler h.1 h.2 s))
    change (runList hs (runHandler h.1 h.2 s)).dirty = false at hd
    change Kept _ _ _ _ (runHandler h.1 h.2 s) at k1
    generalize runHandler h.1 h.2 s = s1 at k1 k2 hd ⊢
    generalize runList hs s1 = s2 at k2 hd ⊢
    have hwatch : ∀ id, s.watch id = true → s1.watch id = true := by
      intro id hid
      rw [k1.watch]
      simp [tryCatchWatch, hid]
    refine ⟨k1.clean, ?_, ?_, ?_⟩
    · intro n hn
      rw [k2.table n (by simp [hn]), k1.table n (Or.inl hn)]; rfl
    · intro id hid
      have h2 : id ∉ hs.flatMap (·.2.body.ids) ∨ s1.watch id = true := by
        rcases hid with hid | hid
        · exact Or.inl fun x => hid (by rw [List.flatMap_cons]; exact List.mem_append_right _ x)
        · exact Or.inr (hwatch id hid)
      have h1 : id ∉ h.2.body.ids ∨ (tryCatchWatch h.1 h.2.start h.2.stop s).watch id = true := by
        rcases hid with hid | hid
        · exact Or.inl fun x => hid (by rw [List.flatMap_cons]; exact List.mem_append_left _ x)
        · exact Or.inr (by simp [tryCatchWatch, hid])
      rw [k2.map id h2, k1.map id h1]; rfl
    · intro T M hT hM g hg
      simp only [List.flatMap_cons, List.mem_append] at hT hM
      rcases List.mem_cons.1 hg with rfl | hg
      · refine ⟨_, k1.ok T M (fun n hn => ?_) (fun id hid => ?_), ?_⟩
        · rw [hT n (Or.inl hn), k2.table n (by simp [hn])]
        · rw [hM id (Or.inl hid), k2.map id (Or.inl fun x => hn2.2.2 id hid id x rfl)]
        · intro e he hw
          have hwt : (tryCatchWatch g.1 g.2.start g.2.stop s).watch e.1 = true := by
            simp only [tryCatchWatch, Bool.or_eq_true, List.any_eq_true]
            exact Or.inr ⟨e, List.mem_filter.2 ⟨he, hw⟩, by simp⟩
          rw [k2.map e.1 (Or.inr (by rw [k1.watch]; exact hwt)), k1.map e.1 (Or.inr hwt)]
          exact roots_le g.1 _ _ s he hw
      · exact k2.ok T M (fun n hn => hT n (Or.inr hn)) (fun id hid => hM id (Or.inr hid)) g hg

/-- A pass over everything, with what the compiler knew. -/
theorem passes_ok {p : Program} (wf : WF p) (c : Ctx) (hs : List (Ctx × Handler)) (last : Bool) (s : St w) (hh : hs.map (·.2) = p.handlers)
    (hv0 : Visited c [] p.main) (hv : VisitedAll p.main.ips hs) (he : last = true ∨ ¬ EndsSeen [] p.main)
    (ht : ∀ h ∈ hs, ∀ e ∈ p.traces, within h.2.start h.2.stop e = true → e ∈ h.1.traces)
    (hd : (runList hs (run c last p.main 0 s)).dirty = false) :
    OkAll p (runList hs (run c last p.main 0 s)).table (runList hs (run c last p.main 0 s)).map := by
  have hseen : Seen [] p.main ∧ SeenAll (p.main.ips ++ []) (p.handlers.map (·.body)) := wf.seen
  rw [List.append_nil] at hseen
  have hbody : hs.map (·.2.body) = p.handlers.map (·.body) := by rw [← hh, List.map_map]; rfl
  have hids : hs.flatMap (·.2.body.ids) = p.handlers.flatMap (·.body.ids) := by rw [← hh, List.flatMap_map]
  have hn : (p.main.ids ++ hs.flatMap (·.2.body.ids)).Nodup := by
    have := wf.nodup
    simp only [Program.traces, Program.logs, List.flatMap_cons, List.map_append] at this
    rw [hids]
    have e : p.handlers.flatMap (·.body.ids) = ((p.handlers.map (·.body)).flatMap Log.traces).map (·.1) := by
      rw [List.flatMap_map, List.map_flatMap]; rfl
    rw [e]; exact this
  have hn2 := List.nodup_append.1 hn
  have k2 := runList_kept hs p.main.ips (run c last p.main 0 s) (by rw [hbody]; exact hseen.2) hn2.2.1 hv hd
  have k1 := run_kept c p.main last [] 0 s hseen.1 hn2.1 hv0 he k2.clean
  generalize run c last p.main 0 s = s1 at k1 k2 hd ⊢
  generalize runList hs s1 = s2 at k2 hd ⊢
  refine ⟨k1.ok _ _ (fun n hn => k2.table n hn) (fun id hid => ?_), ?_⟩
  · exact k2.map id (Or.inl fun x => hn2.2.2 id hid id x rfl)
  · intro h hmem
    rw [← hh] at hmem
    obtain ⟨g, hg, rfl⟩ := List.mem_map.1 hmem
    obtain ⟨r, h1, h2⟩ := k2.ok s2.table s2.map (fun _ _ => rfl) (fun _ _ => rfl) g hg
    refine ⟨r, h1, fun e he ha hb => h2 e (ht g hg e he ?_) ?_⟩ <;> simp [within, ha, hb]

/-! ### What the compiler knows -/

theorem count_flat (l : Log) (n : Nat) : l.flat.count (.ip n) = l.ips.count n := by
  induction l with
  | nil => rfl
  | ip m l ih =>
    simp only [Log.flat, Log.ips, List.count_cons, ih]
    congr 1
    by_cases h : m = n <;> simp [h]
  | mark i l ih => simp [Log.flat, Log.ips, List.count_cons, ih]
  | clear i l ih => simp [Log.flat, Log.ips, List.count_cons, ih]
  | trace i a l ih => simp [Log.flat, Log.ips, List.count_cons, ih]
  | push b l ihb ihl => simp [Log.flat, Log.ips, List.count_cons, List.count_append, ihb, ihl]

theorem traces_append (a b : List Event) : (ctxOf (a ++ b)).traces = (ctxOf a).traces ++ (ctxOf b).traces := by
  simp [ctxOf, List.filterMap_append]

theorem traces_flat (l : Log) : (ctxOf l.flat).traces = l.traces := by
  induction l with
  | nil => rfl
  | ip m l ih => exact ih
  | mark i l ih => exact ih
  | clear i l ih => exact ih
  | trace i a l ih =>
    simp only [ctxOf] at ih
    simp [ctxOf, Log.flat, Log.traces, ih]
  | push b l ihb ihl =>
    have : (ctxOf (Log.push b l).flat).traces = (ctxOf b.flat).traces ++ (ctxOf l.flat).traces := by
      simp [ctxOf, Log.flat, List.filterMap_append]
    rw [this, ihb, ihl]; rfl

theorem count_handler (h : Handler) (n : Nat) : h.flat.count (.ip n) = h.body.ips.count n := by
  simp [Handler.flat, List.count_cons, List.count_append, count_flat]

theorem traces_handler (h : Handler) : (ctxOf h.flat).traces = h.body.traces := by
  have : (ctxOf h.flat).traces = (ctxOf h.body.flat).traces := by simp [ctxOf, Handler.flat, List.filterMap_append]
  rw [this, traces_flat]

theorem visited_of_count {c : Ctx} {seen : List Nat} {l : Log} (h : ∀ n, (seen ++ l.ips).count n ≤ c.visits n) : Visited c seen l := by
  intro n hn _
  have := h n
  omega

theorem visitedAll_of_count {c : Ctx} : ∀ (hs : List Handler) (seen : List Nat),
    (∀ n, (seen ++ hs.flatMap (·.body.ips)).count n ≤ c.visits n) → VisitedAll seen (hs.map fun h => (c, h)) := by
  intro hs
  induction hs with
  | nil => intro _ _; trivial
  | cons h hs ih =>
    intro seen hc
    refine ⟨visited_of_count fun n => ?_, ih _ fun n => ?_⟩
    · have := hc n
      simp only [List.flatMap_cons, List.count_append] at this ⊢
      omega
    · have := hc n
      simp only [List.flatMap_cons, List.count_append] at this ⊢
      omega

/-- The handlers, each with what the compiler knew when it came to it. -/
def withCtx : List Event → List Handler → List (Ctx × Handler)
  | _, [] => []
  | before, h :: r => (ctxOf (before ++ h.flat), h) :: withCtx (before ++ h.flat) r

theorem withCtx_snd : ∀ (hs : List Handler) (before : List Event), (withCtx before hs).map (·.2) = hs := by
  intro hs
  induction hs with
  | nil => intro _; rfl
  | cons h hs ih => intro before; simp only [withCtx, List.map_cons, ih]

theorem withCtx_visited : ∀ (hs : List Handler) (before : List Event) (seen : List Nat), (∀ n, seen.count n ≤ before.count (.ip n)) →
    VisitedAll seen (withCtx before hs) := by
  intro hs
  induction hs with
  | nil => intro _ _ _; trivial
  | cons h hs ih =>
    intro before seen hc
    refine ⟨visited_of_count fun n => ?_, ih _ _ fun n => ?_⟩
    · have := hc n
      simp only [ctxOf, List.count_append, count_handler]
      omega
    · have := hc n
      simp only [List.count_append, count_handler]
      omega

theorem stages_run : ∀ (hs : List Handler) (before : List Event) (s : St w),
    stages before (hs.map Handler.flat) s = runList (withCtx before hs) s := by
  intro hs
  induction hs with
  | nil => intro _ _; rfl
  | cons h hs ih =>
    intro before s
    simp only [List.map_cons, stages, pass_handler]
    exact ih _ _

theorem stages_program (p : Program) (s : St w) :
    stages [] p.jobs s = runList (withCtx p.main.flat p.handlers) (run (ctxOf p.main.flat) true p.main 0 s) := by
  unfold Program.jobs
  simp only [stages, List.nil_append, pass_main]
  exact stages_run _ _ _

/-- No call that can throw to a handler was compiled after the handler. -/
def NoLate : List Handler → Prop
  | [] => True
  | h :: r => (∀ g ∈ r, ∀ e ∈ g.body.traces, ¬ (h.start ≤ e.2 ∧ e.2 < h.stop)) ∧ NoLate r

theorem withCtx_traces : ∀ (hs : List Handler) (before : List Event), NoLate hs → ∀ h ∈ withCtx before hs,
    ∀ e, e ∈ (ctxOf before).traces ++ hs.flatMap (·.body.traces) → within h.2.start h.2.stop e = true → e ∈ h.1.traces := by
  intro hs
  induction hs with
  | nil => intro _ _ h hh; cases hh
  | cons g hs ih =>
    intro before hl h hh e he hw
    simp only [withCtx, List.mem_cons] at hh
    rcases hh with rfl | hh
    · simp only [traces_append, traces_handler]
      simp only [List.flatMap_cons, List.mem_append] at he ⊢
      rcases he with he | he | he
      · exact Or.inl he
      · exact Or.inr he
      · obtain ⟨g', hg', he⟩ := List.mem_flatMap.1 he
        refine absurd ?_ (hl.1 g' hg' e he)
        simpa [within] using hw
    · refine ih (before ++ g.flat) hl.2 h hh e ?_ hw
      simp only [traces_append, traces_handler, List.flatMap_cons, List.mem_append] at he ⊢
      rcases he with he | he | he
      · exact Or.inl (Or.inl he)
      · exact Or.inl (Or.inr he)
      · exact Or.inr he

theorem program_traces (p : Program) : p.traces = p.main.traces ++ p.handlers.flatMap (·.body.traces) := by
  simp only [Program.traces, Program.logs, List.flatMap_cons, List.flatMap_map]

theorem jobs_traces (p : Program) : (ctxOf p.jobs.flatten).traces = p.traces := by
  rw [program_traces, Program.jobs, List.flatten_cons, traces_append, traces_flat]
  congr 1
  induction p.handlers with
  | nil => rfl
  | cons h hs ih => rw [List.map_cons, List.flatten_cons, traces_append, traces_handler, ih, List.flatMap_cons]

theorem jobs_count (p : Program) (n : Nat) : (ctxOf p.jobs.flatten).visits n = (p.main.ips ++ p.handlers.flatMap (·.body.ips)).count n := by
  simp only [ctxOf, Program.jobs, List.flatten_cons, List.count_append, count_flat]
  congr 1
  induction p.handlers with
  | nil => rfl
  | cons h hs ih => rw [List.map_cons, List.flatten_cons, List.count_append, count_handler, ih, List.flatMap_cons, List.count_append]

theorem runHandlers_list (c : Ctx) (hs : List Handler) (s : St w) : runHandlers c hs s = runList (hs.map fun h => (c, h)) s := by
  unfold runHandlers runList
  rw [List.foldl_map]

/-- The tables and maps agree when the analysis stops. -/
theorem analysis_ok {p : Program} (wf : WF p) (hl : NoLate p.handlers) (he : p.handlers = [] ∨ ¬ EndsSeen [] p.main) {s : St w}
    (h : Analysis p.jobs s) (hd : s.dirty = false) : OkAll p s.table s.map := by
  cases h with
  | first =>
    rw [stages_program] at hd ⊢
    refine passes_ok wf _ _ true init (withCtx_snd _ _) ?_ (withCtx_visited _ _ _ fun n => ?_) (Or.inl rfl) ?_ hd
    · exact visited_of_count fun n => by simp [ctxOf, count_flat]
    · rw [count_flat]; exact Nat.le_refl _
    · intro g hg e he hw
      refine withCtx_traces p.handlers p.main.flat hl g hg e ?_ hw
      rw [traces_flat, ← program_traces]; exact he
  | again _ _ =>
    rw [pass_full, runHandlers_list] at hd ⊢
    refine passes_ok wf _ _ _ _ ?_ ?_ ?_ ?_ ?_ hd
    · rw [List.map_map]; exact List.map_id _
    · refine visited_of_count fun n => ?_
      rw [jobs_count]
      simp only [List.nil_append, List.count_append]; omega
    · refine visitedAll_of_count _ _ fun n => ?_
      rw [jobs_count]; exact Nat.le_refl _
    · rcases he with he | he
      · exact Or.inl (by rw [he]; rfl)
      · exact Or.inr he
    · intro g hg e he _
      obtain ⟨x, _, rfl⟩ := List.mem_map.1 hg
      rw [jobs_traces]; exact he

/-- **C94.** When the analysis stops, a slot in the map of a call holds a reference whichever way control came there.  Missing for
the full statement, because it is false: methods that end with a jump backwards and have exception handlers (`back_jump_wrong`), and handlers
for calls that are compiled later (`late_call_wrong`). -/
theorem sound_partial {p : Program} (wf : WF p) (hl : NoLate p.handlers) (he : p.handlers = [] ∨ ¬ EndsSeen [] p.main) {s : St w}
    (h : Analysis p.jobs s) (hd : s.dirty = false) {id : Nat} {b : BitVec w} (ha : Arrives p (.trace id) b) (i : Nat)
    (hi : (s.map id).getLsbD i = true) : b.getLsbD i = true := arrives_bound (analysis_ok wf hl he h hd) ha i hi

/-! ### Every reference is visited -/

/-- What is not in a table is not there on some way. -/
structure Witness (p : Program) (s : St w) : Prop where
  table : ∀ n i, i < w → (s.table n).getLsbD i = false → ∃ b : BitVec w, Arrives p (.ip n) b ∧ b.getLsbD i = false
  map : ∀ id i, i < w → (s.map id).getLsbD i = false → ∃ b : BitVec w, Arrives p (.trace id) b ∧ b.getLsbD i = false

/-- The same for roots at the beginning of a log, where control can be. -/
def WitnessAt (p : Program) (l : Log) (r : BitVec w) : Prop :=
  (∃ b : BitVec w, ∀ o b', Reaches l b o b' → Arrives p o b') ∧
    ∀ i, i < w → r.getLsbD i = false → ∃ b : BitVec w, (∀ o b', Reaches l b o b' → Arrives p o b') ∧ b.getLsbD i = false

theorem run_witness {p : Program} (c : Ctx) : ∀ (l : Log) (last : Bool) (r : BitVec w) (s : St w),
    (∀ n rest, Log.Inside n rest l → ∃ k ∈ p.logs, Log.Inside n rest k) → WitnessAt p l r → Witness p s → Witness p (run c last l r s) := by
  intro l
  induction l with
  | nil => intro _ _ _ _ _ h; exact h
  | ip n l ih =>
    intro last r s hin hr hs
    have harr : ∀ i, i < w → (ipRoots c n r s).getLsbD i = false → ∃ b : BitVec w, Arrives p (.ip n) b ∧ b.getLsbD i = false := by
      intro i hi h
      have hr' : r.getLsbD i = false → ∃ b : BitVec w, Arrives p (.ip n) b ∧ b.getLsbD i = false := by
        intro h
        obtain ⟨b, h1, h2⟩ := hr.2 i hi h
        exact ⟨b, h1 _ _ .ipHere, h2⟩
      unfold ipRoots at h
      by_cases hv : c.visits n > 1
      · rw [if_pos hv, BitVec.getLsbD_and, Bool.and_eq_false_iff] at h
        rcases h with h | h
        · exact hs.table n i hi h
        · exact hr' h
      · rw [if_neg hv] at h; exact hr' h
    obtain ⟨k, hk, hin'⟩ := hin n l .here
    refine ih last _ _ (fun m rest h => hin m rest (.ip h)) ⟨?_, ?_⟩ ⟨?_, hs.map⟩
    · obtain ⟨b, hb⟩ := hr.1
      exact ⟨b, fun o b' hrb => hb o b' (.ip hrb)⟩
    · intro i hi h
      obtain ⟨b, h1, h2⟩ := harr i hi h
      exact ⟨b, fun o b' hrb => .jump h1 hk hin' hrb, h2⟩
    · intro m i hi h
      simp only [ipState] at h
      by_cases hm : m = n
      · subst hm; rw [upd_same] at h; exact harr i hi h
      · rw [upd_other _ _ hm] at h; exact hs.table m i hi h
  | mark j l ih =>
    intro last r s hin hr hs
    refine ih last _ _ (fun m rest h => hin m rest (.mark h)) ⟨?_, ?_⟩ hs
    · obtain ⟨b, hb⟩ := hr.1
      exact ⟨markBit b j, fun o b' hrb => hb o b' (.mark hrb)⟩
    · intro i hi h
      rw [mark_bit _ _ _ hi, Bool.or_eq_false_iff] at h
      obtain ⟨b, h1, h2⟩ := hr.2 i hi h.1
      exact ⟨markBit b j, fun o b' hrb => h1 o b' (.mark hrb), by rw [mark_bit _ _ _ hi, h2, h.2]; rfl⟩
  | clear j l ih =>
    intro last r s hin hr hs
    obtain ⟨b0, hb0⟩ := hr.1
    refine ih last _ _ (fun m rest h => hin m rest (.clear h)) ⟨?_, ?_⟩ hs
    · exact ⟨clearBit b0 j, fun o b' hrb => hb0 o b' (.clear hrb)⟩
    · intro i hi h
      rw [clear_bit _ _ _ hi, Bool.and_eq_false_iff] at h
      rcases h with h | h
      · obtain ⟨b, h1, h2⟩ := hr.2 i hi h
        exact ⟨clearBit b j, fun o b' hrb => h1 o b' (.clear hrb), by rw [clear_bit _ _ _ hi, h2]; rfl⟩
      · exact ⟨clearBit b0 j, fun o b' hrb => hb0 o b' (.clear hrb), by rw [clear_bit _ _ _ hi, h, Bool.and_false]⟩
  | trace id a l ih =>
    intro last r s hin hr hs
    refine ih last _ _ (fun m rest h => hin m rest (.trace h)) ⟨?_, ?_⟩ ⟨hs.table, ?_⟩
    · obtain ⟨b, hb⟩ := hr.1
      exact ⟨b, fun o b' hrb => hb o b' (.trace hrb)⟩
    · intro i hi h
      obtain ⟨b, h1, h2⟩ := hr.2 i hi h
      exact ⟨b, fun o b' hrb => h1 o b' (.trace hrb), h2⟩
    · intro m i hi h
      simp only [traceState] at h
      by_cases hm : m = id
      · subst hm
        rw [upd_same] at h
        obtain ⟨b, h1, h2⟩ := hr.2 i hi h
        exact ⟨b, h1 _ _ .traceHere, h2⟩
      · rw [upd_other _ _ hm] at h; exact hs.map m i hi h
  | push b l ihb ihl =>
    intro last r s hin hr hs
    obtain ⟨b0, hb0⟩ := hr.1
    refine ihl last _ _ (fun m rest h => hin m rest (.next h)) ⟨⟨b0, fun o b' hrb => hb0 o b' (.next hrb)⟩, ?_⟩
      (ihb true _ _ (fun m rest h => hin m rest (.branch h)) ⟨⟨b0, fun o b' hrb => hb0 o b' (.branch hrb)⟩, ?_⟩ hs)
    · intro i hi h
      obtain ⟨x, h1, h2⟩ := hr.2 i hi h
      exact ⟨x, fun o b' hrb => h1 o b' (.next hrb), h2⟩
    · intro i hi h
      obtain ⟨x, h1, h2⟩ := hr.2 i hi h
      exact ⟨x, fun o b' hrb => h1 o b' (.branch hrb), h2⟩

/-- Control can come to every handler. -/
def Live (w : Nat) (p : Program) : Prop :=
  ∀ h ∈ p.handlers, ∃ e ∈ p.traces, h.start ≤ e.2 ∧ e.2 < h.stop ∧ ∃ b : BitVec w, Arrives p (.trace e.1) b

theorem runList_witness {p : Program} (hlive : Live w p) : ∀ (hs : List (Ctx × Handler)) (s : St w),
    (∀ h ∈ hs, h.2 ∈ p.handlers ∧ ∀ e ∈ h.1.traces, e ∈ p.traces) → Witness p s → Witness p (runList hs s) := by
  intro hs
  induction hs with
  | nil => intro s _ h; exact h
  | cons h hs ih =>
    intro s hh hw
    refine ih (runHandler h.1 h.2 s) (fun g hg => hh g (List.mem_cons_of_mem _ hg)) ?_
    have h0 := hh h List.mem_cons_self
    refine run_witness h.1 h.2.body true _ _ ?_ ⟨?_, ?_⟩ ⟨hw.table, hw.map⟩
    · intro n rest hi
      exact ⟨h.2.body, by simp only [Program.logs, List.mem_cons, List.mem_map]; exact Or.inr ⟨h.2, h0.1, rfl⟩, hi⟩
    · obtain ⟨e, he, h1, h2, b, hb⟩ := hlive h.2 h0.1
      exact ⟨b, fun o b' hr => .throw hb he h0.1 h1 h2 hr⟩
    · intro i hi hr
      rw [roots_bit _ _ _ _ _ hi, List.all_eq_false] at hr
      obtain ⟨e, he, h1⟩ := hr
      obtain ⟨he, hin⟩ := List.mem_filter.1 he
      simp only [within, Bool.and_eq_true, decide_eq_true_eq] at hin
      obtain ⟨b, h2, h3⟩ := hw.map e.1 i hi (by simpa using h1)
      exact ⟨b, fun o b' hr => .throw h2 (h0.2 e he) h0.1 hin.1 hin.2 hr, h3⟩

theorem withCtx_known : ∀ (hs : List Handler) (before : List Event), ∀ h ∈ withCtx before hs,
    h.2 ∈ hs ∧ ∀ e ∈ h.1.traces, e ∈ (ctxOf before).traces ++ hs.flatMap (·.body.traces) := by
  intro hs
  induction hs with
  | nil => intro _ h hh; cases hh
  | cons g hs ih =>
    intro before h hh
    simp only [withCtx, List.mem_cons] at hh
    rcases hh with rfl | hh
    · refine ⟨List.mem_cons_self, fun e he => ?_⟩
      simp only [traces_append, traces_handler, List.flatMap_cons, List.mem_append] at he ⊢
      rcases he with he | he
      · exact Or.inl he
      · exact Or.inr (Or.inl he)
    · obtain ⟨h1, h2⟩ := ih _ h hh
      refine ⟨List.mem_cons_of_mem _ h1, fun e he => ?_⟩
      have := h2 e he
      simp only [traces_append, traces_handler, List.flatMap_cons, List.mem_append] at this ⊢
      rcases this with (h | h) | h
      · exact Or.inl h
      · exact Or.inr (Or.inl h)
      · exact Or.inr (Or.inr h)

theorem main_witness {p : Program} (c : Ctx) (last : Bool) {s : St w} (hw : Witness p s) : Witness p (run c last p.main 0 s) := by
  refine run_witness c p.main last 0 s (fun n rest h => ⟨p.main, by simp [Program.logs], h⟩) ⟨?_, ?_⟩ hw
  · exact ⟨0, fun o b' hr => .start hr⟩
  · intro i _ _
    exact ⟨0, fun o b' hr => .start hr, by simp⟩

theorem analysis_witness {p : Program} (hlive : Live w p) {s : St w} (h : Analysis p.jobs s) : Witness p s := by
  induction h with
  | first =>
    rw [stages_program]
    refine runList_witness hlive _ _ ?_ (main_witness _ _ ⟨?_, ?_⟩)
    · intro h hh
      obtain ⟨h1, h2⟩ := withCtx_known _ _ h hh
      refine ⟨h1, fun e he => ?_⟩
      have := h2 e he
      rw [traces_flat, ← program_traces] at this
      exact this
    · intro n i hi h; simp [init, hi] at h
    · intro n i hi h; simp [init, hi] at h
  | again _ _ ih =>
    rw [pass_full, runHandlers_list]
    refine runList_witness hlive _ _ ?_ (main_witness _ _ ⟨ih.table, ih.map⟩)
    intro h hh
    obtain ⟨g, hg, rfl⟩ := List.mem_map.1 hh
    exact ⟨hg, fun e he => by rw [jobs_traces] at he; exact he⟩

/-- **C94.** A slot that holds a reference whichever way control came to a call is in its map, after every pass. -/
theorem complete {p : Program} (hlive : Live w p) {s : St w} (h : Analysis p.jobs s) (id i : Nat) (hi : i < w)
    (ha : ∀ b : BitVec w, Arrives p (.trace id) b → b.getLsbD i = true) : (s.map id).getLsbD i = true := by
  cases hm : (s.map id).getLsbD i with
  | true => rfl
  | false =>
    obtain ⟨b, h1, h2⟩ := (analysis_witness hlive h).map id i hi hm
    rw [ha b h1] at h2
    cases h2

/-- **C94.** Both: the map of a call has the slots that hold references whichever way control came. -/
theorem frame_maps_partial {p : Program} (wf : WF p) (hl : NoLate p.handlers) (he : p.handlers = [] ∨ ¬ EndsSeen [] p.main) (hlive : Live w p)
    {s : St w} (h : Analysis p.jobs s) (hd : s.dirty = false) (id i : Nat) (hi : i < w) :
    (s.map id).getLsbD i = true ↔ ∀ b : BitVec w, Arrives p (.trace id) b → b.getLsbD i = true :=
  ⟨fun h1 _ h2 => sound_partial wf hl he h hd h2 i h1, complete hlive h id i hi⟩

/-! ### Disagreements -/

/-- `for (;;) { try { f(); } catch (E e) { int i = 1; g(i); } }` where slot 1 held a reference before: instructions 10 (call of `f`), 20 (jump
back), 30 (the handler). -/
def loop : Program :=
  ⟨.mark 1 (.ip 10 (.trace 0 10 (.ip 20 (.ip 10 .nil)))),
    [⟨10, 20, .push (.ip 30 (.mark 0 (.clear 1 (.trace 1 30 (.ip 20 .nil))))) .nil⟩]⟩

/-- **C94, a disagreement.** The analysis stops, and the map of the call of `f` has slot 1, although control can come there when it
holds no reference: the change at the last event of the method is not noticed when handlers follow (6898-6900). -/
theorem back_jump_wrong : WF loop ∧ NoLate loop.handlers ∧ ∃ s : St 2, Analysis loop.jobs s ∧ s.dirty = false ∧
    (s.map 0).getLsbD 1 = true ∧ ∃ b : BitVec 2, Arrives loop (.trace 0) b ∧ b.getLsbD 1 = false := by
  refine ⟨⟨?_, by decide⟩, ?_, ?_⟩
  · simp [loop, Program.logs, SeenAll, Seen, Log.ips]
  · simp [loop, NoLate]
  · refine ⟨_, .again .first ?_, ?_, ?_, 1#2, ?_, rfl⟩
    · decide +kernel
    · decide +kernel
    · decide +kernel
    · have a0 : Arrives loop (.trace 0) (2#2) := .start (.mark (.ip .traceHere))
      have a1 : Arrives loop (.ip 20) (1#2) :=
        .throw (a := 10) (h := ⟨10, 20, .push (.ip 30 (.mark 0 (.clear 1 (.trace 1 30 (.ip 20 .nil))))) .nil⟩) a0
          (by decide) (by simp [loop]) (by decide) (by decide) (.branch (.ip (.mark (.clear (.trace .ipHere)))))
      have a2 : Arrives loop (.ip 10) (1#2) :=
        .jump a1 (l := loop.main) (by simp [Program.logs]) (.mark (.ip (.trace .here))) .ipHere
      exact .jump a2 (l := loop.main) (by simp [Program.logs]) (.mark .here) .traceHere

/-- A handler (20) for instructions 0 to 9, where 5 is only reached through another handler. -/
def late : Program :=
  ⟨.mark 1 (.ip 0 (.trace 0 0 .nil)),
    [⟨0, 10, .push (.ip 20 (.mark 0 (.trace 1 20 .nil))) .nil⟩, ⟨0, 1, .push (.ip 5 (.mark 0 (.clear 1 (.trace 2 5 .nil)))) .nil⟩]⟩

/-- **C94, a disagreement.** The map of the call in the first handler has slot 1, although control can come there from the call at 5, which
was compiled later and changed the slot. -/
theorem late_call_wrong : WF late ∧ ¬ EndsSeen [] late.main ∧ ∃ s : St 2, Analysis late.jobs s ∧ s.dirty = false ∧
    (s.map 1).getLsbD 1 = true ∧ ∃ b : BitVec 2, Arrives late (.trace 1) b ∧ b.getLsbD 1 = false := by
  refine ⟨⟨?_, by decide⟩, ?_, ?_⟩
  · simp [late, Program.logs, SeenAll, Seen, Log.ips]
  · simp [late, EndsSeen]
  · refine ⟨_, .first, ?_, ?_, 1#2, ?_, rfl⟩
    · decide +kernel
    · decide +kernel
    · have a0 : Arrives late (.trace 0) (2#2) := .start (.mark (.ip .traceHere))
      have a1 : Arrives late (.trace 2) (1#2) :=
        .throw (a := 0) (h := ⟨0, 1, .push (.ip 5 (.mark 0 (.clear 1 (.trace 2 5 .nil)))) .nil⟩) a0
          (by decide) (by simp [late]) (by decide) (by decide) (.branch (.ip (.mark (.clear .traceHere))))
      exact .throw (a := 5) (h := ⟨0, 10, .push (.ip 20 (.mark 0 (.trace 1 20 .nil))) .nil⟩) a1
        (by decide) (by simp [late]) (by decide) (by decide) (.branch (.ip (.mark .traceHere)))

/-! ### The analysis stops -/

theorem Le.antisymm {a b : BitVec w} (h1 : Le a b) (h2 : Le b a) : a = b := by
  apply BitVec.eq_of_getLsbD_eq
  intro i _
  cases ha : a.getLsbD i with
  | true => exact (h1 i ha).symm
  | false =>
    cases hb : b.getLsbD i with
    | true => rw [h2 i hb] at ha; cases ha
    | false => rfl

theorem and_le {a b c d : BitVec w} (h1 : Le a b) (h2 : Le c d) : Le (a &&& c) (b &&& d) := by
  intro i h
  rw [BitVec.getLsbD_and, Bool.and_eq_true] at *
  exact ⟨h1 i h.1, h2 i h.2⟩

theorem Le.toNat {a b : BitVec w} (h : Le a b) : a.toNat ≤ b.toNat := by
  have : a = a &&& b := by
    apply BitVec.eq_of_getLsbD_eq
    intro i _
    rw [BitVec.getLsbD_and]
    cases ha : a.getLsbD i with
    | true => rw [h i ha]; rfl
    | false => rfl
  rw [this, BitVec.toNat_and]
  exact Nat.and_le_right

/-- Tables and maps of the first state are in those of the second. -/
structure Below (s1 s2 : St w) : Prop where
  table : ∀ n, Le (s1.table n) (s2.table n)
  map : ∀ id, Le (s1.map id) (s2.map id)

/-- The compiler knows more. -/
structure More (c1 c2 : Ctx) : Prop where
  visits : ∀ n, c2.visits n ≤ c1.visits n
  traces : ∀ e ∈ c2.traces, e ∈ c1.traces

theorem ipRoots_le {c1 c2 : Ctx} (hc : More c1 c2) (n : Nat) {r1 r2 : BitVec w} (hr : Le r1 r2) {s1 s2 : St w} (hs : Below s1 s2) :
    Le (ipRoots c1 n r1 s1) (ipRoots c2 n r2 s2) := by
  have := hc.visits n
  unfold ipRoots
  by_cases h1 : c1.visits n > 1
  · rw [if_pos h1]
    by_cases h2 : c2.visits n > 1
    · rw [if_pos h2]; exact and_le (hs.table n) hr
    · rw [if_neg h2]; exact (and_le_right _ _).trans hr
  · rw [if_neg h1, if_neg (by omega)]; exact hr

theorem upd_le {f g : Nat → BitVec w} (h : ∀ n, Le (f n) (g n)) (n : Nat) {a b : BitVec w} (hab : Le a b) : ∀ m, Le (upd f n a m) (upd g n b m) := by
  intro m
  unfold upd
  by_cases hm : m = n
  · rw [if_pos hm, if_pos hm]; exact hab
  · rw [if_neg hm, if_neg hm]; exact h m

theorem run_below {c1 c2 : Ctx} (hc : More c1 c2) : ∀ (l : Log) (l1 l2 : Bool) {r1 r2 : BitVec w} {s1 s2 : St w}, Le r1 r2 → Below s1 s2 →
    Below (run c1 l1 l r1 s1) (run c2 l2 l r2 s2) := by
  intro l
  induction l with
  | nil => intro _ _ _ _ _ _ _ h; exact h
  | ip n l ih =>
    intro l1 l2 r1 r2 s1 s2 hr hs
    exact ih _ _ (ipRoots_le hc n hr hs) ⟨upd_le hs.table n (ipRoots_le hc n hr hs), hs.map⟩
  | mark i l ih => intro l1 l2 r1 r2 s1 s2 hr hs; exact ih _ _ (mark_le hr i) hs
  | clear i l ih => intro l1 l2 r1 r2 s1 s2 hr hs; exact ih _ _ (clear_le hr i) hs
  | trace i a l ih => intro l1 l2 r1 r2 s1 s2 hr hs; exact ih _ _ hr ⟨hs.table, upd_le hs.map i hr⟩
  | push b l ihb ihl => intro l1 l2 r1 r2 s1 s2 hr hs; exact ihl _ _ hr (ihb _ _ hr hs)

theorem roots_below {c1 c2 : Ctx} (hc : More c1 c2) (a b : Nat) {s1 s2 : St w} (hs : Below s1 s2) :
    Le (tryCatchRoots c1 a b s1) (tryCatchRoots c2 a b s2) := by
  intro i hi
  have hw := BitVec.lt_of_getLsbD hi
  rw [roots_bit _ _ _ _ _ hw, List.all_eq_true] at *
  intro e he
  obtain ⟨h1, h2⟩ := List.mem_filter.1 he
  exact hs.map e.1 i (hi e (List.mem_filter.2 ⟨hc.traces e h1, h2⟩))

/-- The same handlers, and the compiler knows more. -/
def MoreAll (c : Ctx) : List (Ctx × Handler) → Prop := fun hs => ∀ h ∈ hs, More c h.1

theorem runList_below {c : Ctx} : ∀ (hs : List (Ctx × Handler)) {s1 s2 : St w}, MoreAll c hs → Below s1 s2 →
    Below (runList ((hs.map (·.2)).map fun h => (c, h)) s1) (runList hs s2) := by
  intro hs
  induction hs with
  | nil => intro s1 s2 _ h; exact h
  | cons h hs ih =>
    intro s1 s2 hm hb
    have h0 := hm h List.mem_cons_self
    exact ih (fun g hg => hm g (List.mem_cons_of_mem _ hg)) (run_below h0 h.2.body _ _ (roots_below h0 _ _ hb) ⟨hb.table, hb.map⟩)

theorem More.refl (c : Ctx) : More c c := ⟨fun _ => Nat.le_refl _, fun _ h => h⟩

/-- What a pass does not change, whether it notices changes or not. -/
theorem run_map (c : Ctx) : ∀ (l : Log) (last : Bool) (r : BitVec w) (s : St w) (id : Nat), id ∉ l.ids → (run c last l r s).map id = s.map id := by
  intro l
  induction l with
  | nil => intro _ _ _ _ _; rfl
  | ip n l ih => intro last r s id h; exact ih _ _ _ id h
  | mark i l ih => intro last r s id h; exact ih _ _ _ id h
  | clear i l ih => intro last r s id h; exact ih _ _ _ id h
  | trace i a l ih =>
    intro last r s id h
    simp only [Log.ids, Log.traces, List.map_cons, List.mem_cons, not_or] at h
    exact (ih _ _ _ id h.2).trans (upd_other _ _ h.1)
  | push b l ihb ihl =>
    intro last r s id h
    simp only [Log.ids, Log.traces, List.map_append, List.mem_append, not_or] at h
    exact (ihl _ _ _ id h.2).trans (ihb _ _ _ id h.1)

theorem run_decr (c : Ctx) (n : Nat) (hn : c.visits n > 1) : ∀ (l : Log) (last : Bool) (r : BitVec w) (s : St w),
    Le ((run c last l r s).table n) (s.table n) := by
  intro l
  induction l with
  | nil => intro _ _ _; exact Le.rfl
  | ip m l ih =>
    intro last r s
    refine (ih last _ _).trans ?_
    simp only [ipState]
    by_cases h : n = m
    · subst h
      rw [upd_same]
      unfold ipRoots
      rw [if_pos hn]
      exact and_le_left _ _
    · rw [upd_other _ _ h]; exact Le.rfl
  | mark i l ih => intro last r s; exact ih _ _ _
  | clear i l ih => intro last r s; exact ih _ _ _
  | trace i a l ih => intro last r s; exact ih _ _ _
  | push b l ihb ihl => intro last r s; exact (ihl _ _ _).trans (ihb _ _ _)

/-- Something has changed. -/
def Changed (c : Ctx) (ips ids : List Nat) (s s' : St w) : Prop :=
  (∃ n ∈ ips, c.visits n > 1 ∧ s'.table n ≠ s.table n) ∨ ∃ id ∈ ids, s'.map id ≠ s.map id

theorem lt_ne {a b c : BitVec w} (h1 : Le a b) (h2 : Le b c) (h : b ≠ c) : a ≠ c := by
  intro e
  subst e
  exact h (h2.antisymm h1)

theorem run_dirty (c : Ctx) : ∀ (l : Log) (last : Bool) (r : BitVec w) (s : St w), l.ids.Nodup → (run c last l r s).dirty = true →
    s.dirty = true ∨ Changed c l.ips l.ids s (run c last l r s) := by
  intro l
  induction l with
  | nil => intro _ _ s _ h; exact Or.inl h
  | ip n l ih =>
    intro last r s hn hd
    rcases ih last _ _ hn hd with h | ⟨m, hm, hv, hne⟩ | ⟨id, hid, hne⟩
    · simp only [ipState, Bool.or_eq_true, Bool.and_eq_true, decide_eq_true_eq] at h
      rcases h with h | ⟨⟨hv, _⟩, hne⟩
      · exact Or.inl h
      · refine Or.inr (Or.inl ⟨n, by simp [Log.ips], hv, ?_⟩)
        refine lt_ne (b := ipRoots c n r s) ?_ ?_ hne
        · have := run_decr c n hv l last (ipRoots c n r s) (ipState c n (last && l.isNil) r s)
          simp only [ipState, upd_same] at this
          exact this
        · unfold ipRoots; rw [if_pos hv]; exact and_le_left _ _
    · refine Or.inr (Or.inl ⟨m, by simp [Log.ips, hm], hv, fun e => ?_⟩)
      by_cases hmn : m = n
      · subst hmn
        have h1 := run_decr c m hv l last (ipRoots c m r s) (ipState c m (last && l.isNil) r s)
        have h2 : Le ((ipState c m (last && l.isNil) r s).table m) (s.table m) := by
          simp only [ipState, upd_same]
          unfold ipRoots; rw [if_pos hv]; exact and_le_left _ _
        have e' : (run c last l (ipRoots c m r s) (ipState c m (last && l.isNil) r s)).table m = s.table m := e
        rw [e'] at h1 hne
        exact hne (h1.antisymm h2)
      · refine hne ?_
        have : (ipState c n (last && l.isNil) r s).table m = s.table m := upd_other _ _ hmn
        rw [this]; exact e
    · exact Or.inr (Or.inr ⟨id, hid, hne⟩)
  | mark i l ih => intro last r s hn hd; exact ih _ _ _ hn hd
  | clear i l ih => intro last r s hn hd; exact ih _ _ _ hn hd
  | trace i a l ih =>
    intro last r s hn hd
    have hn' := List.nodup_cons.1 (show (i :: l.ids).Nodup from hn)
    rcases ih last _ _ hn'.2 hd with h | ⟨m, hm, hv, hne⟩ | ⟨id, hid, hne⟩
    · simp only [traceState, Bool.or_eq_true, Bool.and_eq_true, decide_eq_true_eq] at h
      rcases h with h | ⟨_, hne⟩
      · exact Or.inl h
      · refine Or.inr (Or.inr ⟨i, by simp [Log.ids, Log.traces], fun e => hne ?_⟩)
        have : (run c last (.trace i a l) r s).map i = r := (run_map c l last r _ i hn'.1).trans (upd_same ..)
        rw [← e, this]
    · exact Or.inr (Or.inl ⟨m, hm, hv, hne⟩)
    · refine Or.inr (Or.inr ⟨id, List.mem_cons_of_mem _ hid, fun e => hne ?_⟩)
      have hni : id ≠ i := fun x => hn'.1 (x ▸ hid)
      have : (traceState i r s).map id = s.map id := upd_other _ _ hni
      rw [this]; exact e
  | push b l ihb ihl =>
    intro last r s hn hd
    have hn' : (b.ids ++ l.ids).Nodup := by
      have : (Log.push b l).ids = b.ids ++ l.ids := by simp [Log.ids, Log.traces]
      rw [← this]; exact hn
    have hn2 := List.nodup_append.1 hn'
    have hsub : ∀ id, id ∈ (Log.push b l).ids ↔ id ∈ b.ids ∨ id ∈ l.ids := by
      intro id; simp [Log.ids, Log.traces]
    have e0 : run c last (.push b l) r s = run c last l r (run c true b r s) := rfl
    rcases ihl last r (run c true b r s) hn2.2.1 hd with h | ⟨m, hm, hv, hne⟩ | ⟨id, hid, hne⟩
    · rcases ihb true r s hn2.1 h with h | ⟨m, hm, hv, hne⟩ | ⟨id, hid, hne⟩
      · exact Or.inl h
      · exact Or.inr (Or.inl ⟨m, by simp [Log.ips, hm], hv, lt_ne (run_decr c m hv l last r _) (run_decr c m hv b true r s) hne⟩)
      · refine Or.inr (Or.inr ⟨id, (hsub id).2 (Or.inl hid), fun e => hne ?_⟩)
        rw [e0, run_map c l last r _ id (fun x => hn2.2.2 id hid id x rfl)] at e
        exact e
    · refine Or.inr (Or.inl ⟨m, by simp [Log.ips, hm], hv, fun e => hne ?_⟩)
      rw [e0] at e
      rw [e]
      have h1 := run_decr c m hv l last r (run c true b r s)
      rw [e] at h1
      exact h1.antisymm (run_decr c m hv b true r s)
    · refine Or.inr (Or.inr ⟨id, (hsub id).2 (Or.inr hid), fun e => hne ?_⟩)
      rw [e0] at e
      rw [e]
      exact (run_map c b true r s id (fun x => hn2.2.2 id x id hid rfl)).symm

theorem handlers_decr (c : Ctx) (n : Nat) (hn : c.visits n > 1) (hs : List Handler) (s : St w) : Le ((runHandlers c hs s).table n) (s.table n) := by
  induction hs generalizing s with
  | nil => exact Le.rfl
  | cons h hs ih => exact (ih (runHandler c h s)).trans (run_decr c n hn h.body true _ _)

theorem handlers_map (c : Ctx) (hs : List Handler) (s : St w) (id : Nat) (h : id ∉ hs.flatMap (·.body.ids)) :
    (runHandlers c hs s).map id = s.map id := by
  induction hs generalizing s with
  | nil => rfl
  | cons g hs ih =>
    rw [List.flatMap_cons, List.mem_append, not_or] at h
    exact (ih (runHandler c g s) h.2).trans (run_map c g.body true _ _ id h.1)

theorem handlers_dirty (c : Ctx) : ∀ (hs : List Handler) (s : St w), (hs.flatMap (·.body.ids)).Nodup → (runHandlers c hs s).dirty = true →
    s.dirty = true ∨ Changed c (hs.flatMap (·.body.ips)) (hs.flatMap (·.body.ids)) s (runHandlers c hs s) := by
  intro hs
  induction hs with
  | nil => intro s _ h; exact Or.inl h
  | cons g hs ih =>
    intro s hn hd
    have hn2 := List.nodup_append.1 (show (g.body.ids ++ hs.flatMap (·.body.ids)).Nodup from hn)
    have e0 : runHandlers c (g :: hs) s = runHandlers c hs (runHandler c g s) := rfl
    rcases ih (runHandler c g s) hn2.2.1 hd with h | ⟨m, hm, hv, hne⟩ | ⟨id, hid, hne⟩
    · rcases run_dirty c g.body true (tryCatchRoots c g.start g.stop s) (tryCatchWatch c g.start g.stop s) hn2.1 h with h | ⟨m, hm, hv, hne⟩ | ⟨id, hid, hne⟩
      · exact Or.inl h
      · refine Or.inr (Or.inl ⟨m, by simp [List.flatMap_cons, hm], hv, ?_⟩)
        exact lt_ne (handlers_decr c m hv hs _) (run_decr c m hv g.body true (tryCatchRoots c g.start g.stop s) (tryCatchWatch c g.start g.stop s)) hne
      · refine Or.inr (Or.inr ⟨id, by simp only [List.flatMap_cons, List.mem_append]; exact Or.inl hid, fun e => hne ?_⟩)
        rw [e0, handlers_map c hs _ id (fun x => hn2.2.2 id hid id x rfl)] at e
        exact e
    · refine Or.inr (Or.inl ⟨m, by simp only [List.flatMap_cons, List.mem_append]; exact Or.inr hm, hv, fun e => hne ?_⟩)
      rw [e0] at e
      rw [e]
      have h1 := handlers_decr c m hv hs (runHandler c g s)
      rw [e] at h1
      exact h1.antisymm (run_decr c m hv g.body true (tryCatchRoots c g.start g.stop s) (tryCatchWatch c g.start g.stop s))
    · refine Or.inr (Or.inr ⟨id, by simp only [List.flatMap_cons, List.mem_append]; exact Or.inr hid, fun e => hne ?_⟩)
      rw [e0] at e
      rw [e]
      exact (run_map c g.body true (tryCatchRoots c g.start g.stop s) (tryCatchWatch c g.start g.stop s) id
        (fun x => hn2.2.2 id x id hid rfl)).symm

/-- How much is left to clear. -/
def weight (f : Nat → BitVec w) (l : List Nat) : Nat := (l.map fun n => (f n).toNat).sum

theorem weight_le {f g : Nat → BitVec w} (h : ∀ n, Le (f n) (g n)) (l : List Nat) : weight f l ≤ weight g l := by
  induction l with
  | nil => exact Nat.le_refl _
  | cons n l ih =>
    have := (h n).toNat
    simp only [weight, List.map_cons, List.sum_cons] at ih ⊢
    omega

theorem weight_lt {f g : Nat → BitVec w} (h : ∀ n, Le (f n) (g n)) {l : List Nat} {n : Nat} (hn : n ∈ l) (hne : f n ≠ g n) :
    weight f l < weight g l := by
  induction l with
  | nil => cases hn
  | cons m l ih =>
    have h1 := (h m).toNat
    have h2 := weight_le h l
    simp only [weight, List.map_cons, List.sum_cons] at ih h2 ⊢
    rcases List.mem_cons.1 hn with rfl | hn
    · have : (f n).toNat ≠ (g n).toNat := fun e => hne (BitVec.eq_of_toNat_eq e)
      omega
    · have := ih hn
      omega

def total (p : Program) (s : St w) : Nat :=
  weight s.table (p.main.ips ++ p.handlers.flatMap (·.body.ips)) + weight s.map (p.main.ids ++ p.handlers.flatMap (·.body.ids))

/-- One more pass over everything. -/
def next (p : Program) (s : St w) : St w := pass (ctxOf p.jobs.flatten) p.jobs.flatten { s with dirty := false }

theorem next_below {p : Program} {s1 s2 : St w} (h : Below s1 s2) : Below (next p s1) (next p s2) := by
  unfold next
  rw [pass_full, pass_full, runHandlers_list, runHandlers_list]
  have := runList_below (c := ctxOf p.jobs.flatten) (p.handlers.map fun h => (ctxOf p.jobs.flatten, h))
    (s1 := run (ctxOf p.jobs.flatten) p.handlers.isEmpty p.main 0 { s1 with dirty := false })
    (s2 := run (ctxOf p.jobs.flatten) p.handlers.isEmpty p.main 0 { s2 with dirty := false })
    (by intro h hh; obtain ⟨g, _, rfl⟩ := List.mem_map.1 hh; exact More.refl _)
    (run_below (More.refl _) p.main _ _ Le.rfl ⟨h.table, h.map⟩)
  have e : (p.handlers.map fun h => (ctxOf p.jobs.flatten, h)).map (·.2) = p.handlers := by rw [List.map_map]; exact List.map_id _
  rw [e] at this
  exact this

theorem withCtx_visits : ∀ (hs : List Handler) (before : List Event), ∀ h ∈ withCtx before hs, ∀ n,
    h.1.visits n ≤ before.count (.ip n) + (hs.flatMap (·.body.ips)).count n := by
  intro hs
  induction hs with
  | nil => intro _ h hh; cases hh
  | cons g hs ih =>
    intro before h hh n
    simp only [withCtx, List.mem_cons] at hh
    rcases hh with rfl | hh
    · simp only [ctxOf, List.count_append, count_handler, List.flatMap_cons]; omega
    · have := ih _ h hh n
      simp only [List.count_append, count_handler, List.flatMap_cons] at this ⊢
      omega

theorem first_below (p : Program) : Below (next p (stages [] p.jobs (init : St w))) (stages [] p.jobs (init : St w)) := by
  have htop : ∀ s : St w, Below s init := by
    intro s
    constructor <;> intro n i hi <;> simp [init, BitVec.lt_of_getLsbD hi]
  have hm : MoreAll (ctxOf p.jobs.flatten) (withCtx p.main.flat p.handlers) := by
    intro h hh
    refine ⟨fun n => ?_, fun e he => ?_⟩
    · have := withCtx_visits _ _ h hh n
      rw [count_flat] at this
      rw [jobs_count, List.count_append]; exact this
    · have := (withCtx_known _ _ h hh).2 e he
      rw [traces_flat, ← program_traces] at this
      rw [jobs_traces]; exact this
  have hm0 : More (ctxOf p.jobs.flatten) (ctxOf p.main.flat) := by
    refine ⟨fun n => ?_, fun e he => ?_⟩
    · rw [jobs_count, List.count_append]; simp only [ctxOf, count_flat]; omega
    · rw [traces_flat] at he
      rw [jobs_traces, program_traces]; exact List.mem_append_left _ he
  have key : ∀ s : St w, Below (next p s) (stages [] p.jobs (init : St w)) := by
    intro s
    unfold next
    rw [pass_full, runHandlers_list, stages_program]
    have := runList_below (c := ctxOf p.jobs.flatten) (withCtx p.main.flat p.handlers)
      (s1 := run (ctxOf p.jobs.flatten) p.handlers.isEmpty p.main 0 { s with dirty := false })
      (s2 := run (ctxOf p.main.flat) true p.main 0 (init : St w)) hm
      (run_below hm0 p.main _ _ Le.rfl ⟨(htop s).table, (htop s).map⟩)
    rw [withCtx_snd] at this
    exact this
  exact key _

theorem next_less {p : Program} (wf : WF p) {s : St w} (h : Below (next p s) s) (hd : (next p s).dirty = true) : total p (next p s) < total p s := by
  have hids : p.handlers.flatMap (·.body.ids) = ((p.handlers.map (·.body)).flatMap Log.traces).map (·.1) := by
    rw [List.flatMap_map, List.map_flatMap]; rfl
  have hn : (p.main.ids ++ p.handlers.flatMap (·.body.ids)).Nodup := by
    have := wf.nodup
    simp only [Program.traces, Program.logs, List.flatMap_cons, List.map_append] at this
    rw [hids]; exact this
  have hn2 := List.nodup_append.1 hn
  have hch : Changed (ctxOf p.jobs.flatten) (p.main.ips ++ p.handlers.flatMap (·.body.ips)) (p.main.ids ++ p.handlers.flatMap (·.body.ids)) s (next p s) := by
    have e0 : next p s = runHandlers (ctxOf p.jobs.flatten) p.handlers (run (ctxOf p.jobs.flatten) p.handlers.isEmpty p.main 0 { s with dirty := false }) :=
      pass_full ..
    rw [e0] at hd ⊢
    rcases handlers_dirty _ _ _ hn2.2.1 hd with h | ⟨m, hm, hv, hne⟩ | ⟨id, hid, hne⟩
    · rcases run_dirty _ _ _ _ _ hn2.1 h with h | ⟨m, hm, hv, hne⟩ | ⟨id, hid, hne⟩
      · cases h
      · exact Or.inl ⟨m, List.mem_append_left _ hm, hv, lt_ne (handlers_decr _ m hv _ _)
          (run_decr (ctxOf p.jobs.flatten) m hv p.main p.handlers.isEmpty 0 { s with dirty := false }) hne⟩
      · refine Or.inr ⟨id, List.mem_append_left _ hid, fun e => hne ?_⟩
        rw [handlers_map _ _ _ id (fun x => hn2.2.2 id hid id x rfl)] at e
        exact e
    · refine Or.inl ⟨m, List.mem_append_right _ hm, hv, fun e => hne ?_⟩
      rw [e]
      have h1 := handlers_decr (ctxOf p.jobs.flatten) m hv p.handlers (run (ctxOf p.jobs.flatten) p.handlers.isEmpty p.main 0 { s with dirty := false })
      rw [e] at h1
      exact h1.antisymm (run_decr (ctxOf p.jobs.flatten) m hv p.main p.handlers.isEmpty 0 { s with dirty := false })
    · refine Or.inr ⟨id, List.mem_append_right _ hid, fun e => hne ?_⟩
      rw [e]
      exact (run_map (ctxOf p.jobs.flatten) p.main p.handlers.isEmpty 0 { s with dirty := false } id (fun x => hn2.2.2 id x id hid rfl)).symm
  unfold total
  have h1 := weight_le h.table (p.main.ips ++ p.handlers.flatMap (·.body.ips))
  have h2 := weight_le h.map (p.main.ids ++ p.handlers.flatMap (·.body.ids))
  rcases hch with ⟨m, hm, _, hne⟩ | ⟨id, hid, hne⟩
  · have := weight_lt h.table hm hne
    omega
  · have := weight_lt h.map hid hne
    omega

/-- **C94.** The analysis stops. -/
theorem stops {p : Program} (wf : WF p) : ∃ s : St w, Analysis p.jobs s ∧ s.dirty = false := by
  have key : ∀ (k : Nat) (s : St w), total p s ≤ k → Analysis p.jobs s → Below (next p s) s → ∃ s : St w, Analysis p.jobs s ∧ s.dirty = false := by
    intro k
    induction k with
    | zero =>
      intro s hk ha hb
      cases hd : s.dirty with
      | false => exact ⟨s, ha, hd⟩
      | true =>
        have ha' : Analysis p.jobs (next p s) := .again ha hd
        cases hd' : (next p s).dirty with
        | false => exact ⟨_, ha', hd'⟩
        | true =>
          have := next_less wf hb hd'
          omega
    | succ k ih =>
      intro s hk ha hb
      cases hd : s.dirty with
      | false => exact ⟨s, ha, hd⟩
      | true =>
        have ha' : Analysis p.jobs (next p s) := .again ha hd
        cases hd' : (next p s).dirty with
        | false => exact ⟨_, ha', hd'⟩
        | true =>
          have := next_less wf hb hd'
          exact ih _ (by omega) ha' (next_below hb)
  exact key _ _ (Nat.le_refl _) .first (first_below p)

/-! ### A program that meets the hypotheses

`f(a); if (…) b = null-ish int; try { g(); } catch (E e) { h(); }` with a join, a loop and a handler. -/

/-- Slot 1 holds a reference on one side of a branch and an `int` on the other; both meet at 6; the call at 6 is guarded by a handler. -/
def meets : Program :=
  ⟨.mark 0 (.ip 1 (.mark 1 (.push (.ip 5 (.clear 1 (.ip 6 (.trace 0 6 (.ip 7 .nil))))) (.ip 2 (.trace 1 2 (.push (.ip 6 .nil) (.ip 9 (.clear 0 .nil)))))))),
    [⟨6, 7, .push (.ip 30 (.mark 2 (.trace 2 30 (.ip 7 .nil)))) .nil⟩]⟩

theorem meets_wf : WF meets ∧ NoLate meets.handlers ∧ (meets.handlers = [] ∨ ¬ EndsSeen [] meets.main) ∧ Live 3 meets := by
  refine ⟨⟨?_, by decide⟩, ?_, ?_, ?_⟩
  · simp [meets, Program.logs, SeenAll, Seen, Log.ips]
  · simp [meets, NoLate]
  · simp [meets, EndsSeen]
  · intro h hh
    simp only [meets, List.mem_singleton] at hh
    subst hh
    exact ⟨(0, 6), by decide, by decide, by decide, 1#3, .start (.mark (.ip (.mark (.branch (.ip (.clear (.ip .traceHere)))))))⟩

example : ∃ s : St 3, Analysis meets.jobs s ∧ s.dirty = false := stops meets_wf.1

/-- At the guarded call slot 1 is not visited, since an `int` may be there; slot 0 is. -/
example : ∀ s : St 3, Analysis meets.jobs s → s.dirty = false → (s.map 0).getLsbD 1 = false := by
  intro s h hd
  cases e : (s.map 0).getLsbD 1 with
  | false => rfl
  | true =>
    have := sound_partial meets_wf.1 meets_wf.2.1 meets_wf.2.2.1 h hd (id := 0) (b := 1#3)
      (.start (.mark (.ip (.mark (.branch (.ip (.clear (.ip .traceHere)))))))) 1 e
    exact absurd this (by decide)

/-! ### The table of maps -/

theorem ceilingDivide_eq {n d : Nat} (h : n + d - 1 < 2 ^ 32) (hd : 0 < d) : ceilingDivide n d = (n + d - 1) / d := by
  unfold ceilingDivide
  rw [Nat.mod_eq_of_lt (by omega : n < 2 ^ 32), Nat.mod_eq_of_lt h]

/-- What the search takes for the part with maps is that part. -/
theorem tableSize_eq {n size : Nat} (h : (n + (n * size + 31) / 32) * size + 31 + size < 2 ^ 32) :
    tableSize size (n + ceilingDivide (n * size) 32) = (n * size + 31) / 32 := by
  have h0 : n * size ≤ (n + (n * size + 31) / 32) * size := Nat.mul_le_mul_right _ (Nat.le_add_right _ _)
  rw [ceilingDivide_eq (by omega) (by omega)]
  have e0 : n * size + 32 - 1 = n * size + 31 := by omega
  rw [e0]
  generalize hT : (n * size + 31) / 32 = T at *
  unfold tableSize
  rw [ceilingDivide_eq (by omega) (by omega)]
  have h1 : 32 * T ≤ n * size + 31 := by omega
  have h2 : n * size ≤ 32 * T := by omega
  have e1 : (n + T) * size = n * size + T * size := Nat.add_mul ..
  rw [e1]
  generalize n * size = ns at *
  apply Nat.div_eq_of_lt_le
  · rw [Nat.mul_add]; omega
  · rw [Nat.add_mul, Nat.mul_add]; omega

theorem setBit_length (a : List (BitVec 32)) (i : Nat) : (setBit a i).length = a.length := List.length_modify ..
theorem unsetBit_length (a : List (BitVec 32)) (i : Nat) : (unsetBit a i).length = a.length := List.length_modify ..

theorem modify_getD (a : List (BitVec 32)) (k : Nat) (f : BitVec 32 → BitVec 32) (hk : k < a.length) (j : Nat) :
    (a.modify k f).getD j 0 = if j = k then f (a.getD k 0) else a.getD j 0 := by
  rw [List.getD_eq_getElem?_getD, List.getElem?_modify]
  by_cases h : j = k
  · subst h
    rw [if_pos rfl, List.getD_eq_getElem?_getD, List.getElem?_eq_getElem hk]
    simp
  · have h' : ¬ k = j := fun e => h e.symm
    rw [if_neg h, List.getD_eq_getElem?_getD]; simp [h']

theorem setBit_test {a : List (BitVec 32)} {i : Nat} (hi : i < 32 * a.length) (j : Nat) :
    testBit (setBit a i) j = if j = i then true else testBit a j := by
  unfold testBit setBit
  rw [modify_getD _ _ _ (by omega)]
  by_cases h : j / 32 = i / 32
  · rw [if_pos h, BitVec.getLsbD_or, BitVec.getLsbD_shiftLeft]
    have hj : j % 32 < 32 := by omega
    by_cases h' : j = i
    · subst h'
      rw [if_pos rfl]
      simp [hj]
    · rw [if_neg h', h]
      have hne : j % 32 ≠ i % 32 := by omega
      by_cases h3 : j % 32 < i % 32
      · simp [h3]
      · have : (1#32).getLsbD (j % 32 - i % 32) = false := by
          rw [BitVec.getLsbD_one]; simp; omega
        rw [this]; simp
  · rw [if_neg h, if_neg (fun e => h (by rw [e]))]

theorem unsetBit_test {a : List (BitVec 32)} {i : Nat} (hi : i < 32 * a.length) (j : Nat) :
    testBit (unsetBit a i) j = if j = i then false else testBit a j := by
  unfold testBit unsetBit
  rw [modify_getD _ _ _ (by omega)]
  by_cases h : j / 32 = i / 32
  · have hj : j % 32 < 32 := by omega
    rw [if_pos h, BitVec.getLsbD_and, BitVec.getLsbD_not, BitVec.getLsbD_shiftLeft]
    by_cases h' : j = i
    · subst h'
      rw [if_pos rfl]
      simp
    · rw [if_neg h', h]
      have hne : j % 32 ≠ i % 32 := by omega
      by_cases h3 : j % 32 < i % 32
      · simp [h3, hj]
      · have : (1#32).getLsbD (j % 32 - i % 32) = false := by
          rw [BitVec.getLsbD_one]; simp; omega
        rw [this]; simp [hj]
  · rw [if_neg h, if_neg (fun e => h (by rw [e]))]

theorem copyMap_length (e : Element) (off : Nat) : ∀ (n : Nat) (a : List (BitVec 32)), (copyMap e off n a).length = a.length := by
  intro n
  induction n with
  | zero => intro a; rfl
  | succ n ih =>
    intro a
    simp only [copyMap]
    by_cases h : e.map n
    · rw [if_pos h, setBit_length, ih]
    · rw [if_neg h, unsetBit_length, ih]

theorem copyMap_test (e : Element) (off : Nat) : ∀ (n : Nat) (a : List (BitVec 32)), off + n ≤ 32 * a.length → ∀ j,
    testBit (copyMap e off n a) j = if off ≤ j ∧ j < off + n then e.map (j - off) else testBit a j := by
  intro n
  induction n with
  | zero => intro a _ j; rw [if_neg (by omega)]; rfl
  | succ n ih =>
    intro a hn j
    have hl := copyMap_length e off n a
    have key : testBit (copyMap e off (n + 1) a) j = if j = off + n then e.map n else testBit (copyMap e off n a) j := by
      simp only [copyMap]
      by_cases h : e.map n
      · rw [if_pos h, setBit_test (by omega), h]
      · rw [if_neg h, unsetBit_test (by omega)]
        simp only [Bool.not_eq_true] at h
        rw [h]
    rw [key, ih a (by omega)]
    by_cases h : j = off + n
    · rw [if_pos h, if_pos (by omega), h, Nat.add_sub_cancel_left]
    · rw [if_neg h]
      by_cases h2 : off ≤ j ∧ j < off + n
      · rw [if_pos h2, if_pos (by omega)]
      · rw [if_neg h2, if_neg (by omega)]

theorem copyMaps_length (size : Nat) : ∀ (es : List Element) (i : Nat) (a : List (BitVec 32)), (copyMaps size i es a).length = a.length := by
  intro es
  induction es with
  | nil => intro _ _; rfl
  | cons e es ih =>
    intro i a
    simp only [copyMaps]
    rw [ih]
    by_cases h : size = 0
    · rw [if_pos h]
    · rw [if_neg h, copyMap_length]

theorem copyMaps_before {size : Nat} (hs : size ≠ 0) : ∀ (es : List Element) (i : Nat) (a : List (BitVec 32)),
    (∀ e ∈ es, e.argumentIndex ≤ size) → (i + es.length) * size ≤ 32 * a.length → ∀ j, j < i * size →
    testBit (copyMaps size i es a) j = testBit a j := by
  intro es
  induction es with
  | nil => intro _ _ _ _ _ _; rfl
  | cons e es ih =>
    intro i a ha hl j hj
    have hai := ha e List.mem_cons_self
    simp only [copyMaps]
    have e1 : (i + 1) * size = i * size + size := by rw [Nat.add_mul]; omega
    have e2 : (i + (e :: es).length) * size = i * size + size + es.length * size := by
      rw [List.length_cons, Nat.add_mul, Nat.add_mul]; omega
    have e3 : (i + 1 + es.length) * size = i * size + size + es.length * size := by rw [Nat.add_mul, e1]
    rw [e2] at hl
    rw [if_neg hs, ih _ _ (fun e he => ha e (List.mem_cons_of_mem _ he)) (by rw [copyMap_length, e3]; exact hl) _ (by omega)]
    rw [copyMap_test _ _ _ _ (by omega), if_neg (by omega)]

theorem copyMaps_test {size : Nat} (hs : size ≠ 0) : ∀ (es : List Element) (i : Nat) (a : List (BitVec 32)),
    (∀ e ∈ es, e.argumentIndex ≤ size) → (i + es.length) * size ≤ 32 * a.length → ∀ (k : Nat) (hk : k < es.length) (x : Nat), x < size →
    testBit (copyMaps size i es a) ((i + k) * size + x) =
      if x < es[k].argumentIndex then es[k].map x else testBit a ((i + k) * size + x) := by
  intro es
  induction es with
  | nil => intro _ _ _ _ _ hk; exact absurd hk (by simp)
  | cons e es ih =>
    intro i a ha hl k hk x hx
    have hai := ha e List.mem_cons_self
    have e1 : (i + 1) * size = i * size + size := by rw [Nat.add_mul]; omega
    have e2 : (i + (e :: es).length) * size = i * size + size + es.length * size := by
      rw [List.length_cons, Nat.add_mul, Nat.add_mul]; omega
    have e3 : (i + 1 + es.length) * size = i * size + size + es.length * size := by rw [Nat.add_mul, e1]
    rw [e2] at hl
    simp only [copyMaps]
    rw [if_neg hs]
    cases k with
    | zero =>
      rw [copyMaps_before hs _ _ _ (fun e he => ha e (List.mem_cons_of_mem _ he)) (by rw [copyMap_length, e3]; exact hl) _ (by rw [e1]; simp; omega)]
      rw [copyMap_test _ _ _ _ (by omega)]
      simp only [Nat.add_zero, List.getElem_cons_zero]
      by_cases h : x < e.argumentIndex
      · rw [if_pos h, if_pos (by omega), Nat.add_sub_cancel_left]
      · rw [if_neg h, if_neg (by omega)]
    | succ k =>
      have := ih (i + 1) (copyMap e (i * size) e.argumentIndex a) (fun e he => ha e (List.mem_cons_of_mem _ he))
        (by rw [copyMap_length, e3]; exact hl) k (by simp at hk; exact hk) x hx
      have e4 : i + 1 + k = i + (k + 1) := by omega
      rw [e4] at this
      rw [this]
      have e5 : (i + (k + 1)) * size = i * size + size + k * size := by rw [← e4, Nat.add_mul, e1]
      simp only [List.getElem_cons_succ]
      have hneg : ¬ (i * size ≤ (i + (k + 1)) * size + x ∧ (i + (k + 1)) * size + x < i * size + e.argumentIndex) := by rw [e5]; omega
      rw [copyMap_test _ _ _ _ (by omega), if_neg hneg]

/-- The search in an index that is in order. -/
theorem search_found {table : List (BitVec 32)} {n k : Nat} (hk : k < n)
    (hs : ∀ i j, i < j → j < n → (table.getD i 0).slt (table.getD j 0) = true) :
    ∀ (f bottom top : Nat), bottom ≤ k → k < top → top ≤ n → top - bottom < f → search table (table.getD k 0) f bottom top = some k := by
  intro f
  induction f with
  | zero => intro b t _ _ _ h; omega
  | succ f ih =>
    intro b t hb ht hn hf
    simp only [search]
    rw [if_pos (by omega)]
    generalize hm : b + (t - b) / 2 = m
    have hm1 : b ≤ m ∧ m < t := by omega
    by_cases h1 : k = m
    · rw [h1, if_pos rfl]
    · by_cases h2 : k < m
      · have := hs k m h2 (by omega)
        have hne : table.getD k 0 ≠ table.getD m 0 := by
          intro e; rw [e, BitVec.slt_iff_toInt_lt] at this; omega
        rw [if_neg hne, if_pos this]
        exact ih b m hb h2 (by omega) (by omega)
      · have := hs m k (by omega) hk
        have hne : table.getD k 0 ≠ table.getD m 0 := by
          intro e; rw [e, BitVec.slt_iff_toInt_lt] at this; omega
        have hns : ¬ (table.getD k 0).slt (table.getD m 0) = true := by
          intro e; rw [BitVec.slt_iff_toInt_lt] at this e; omega
        rw [if_neg hne, if_neg hns]
        exact ih (m + 1) t (by omega) ht hn (by omega)

theorem search_missing {table : List (BitVec 32)} {x : BitVec 32} {n : Nat} (h : ∀ i, i < n → x ≠ table.getD i 0) :
    ∀ (f bottom top : Nat), top ≤ n → search table x f bottom top = none := by
  intro f
  induction f with
  | zero => intro _ _ _; rfl
  | succ f ih =>
    intro b t ht
    simp only [search]
    by_cases hbt : b < t
    · rw [if_pos hbt, if_neg (h _ (by omega))]
      by_cases h2 : x.slt (table.getD (b + (t - b) / 2) 0) = true
      · rw [if_pos h2]; exact ih _ _ (by omega)
      · rw [if_neg h2]; exact ih _ _ ht
    · rw [if_neg hbt]

/-- The sizes the functions are called with do not overflow 32 bits. -/
def Fits (size n : Nat) : Prop := (n + (n * size + 31) / 32) * size + 31 + size < 2 ^ 32

theorem makeTable_length {size : Nat} {es : List Element} : (makeTable size es).length = es.length + ceilingDivide (es.length * size) 32 := by
  unfold makeTable
  rw [List.length_append, List.length_map, copyMaps_length, List.length_replicate]

theorem index_size {size : Nat} {es : List Element} (h : Fits size es.length) :
    (makeTable size es).length - tableSize size (makeTable size es).length = es.length := by
  rw [makeTable_length, tableSize_eq h]
  have h0 : es.length * size ≤ (es.length + (es.length * size + 31) / 32) * size := Nat.mul_le_mul_right _ (Nat.le_add_right _ _)
  have h1 : (es.length + (es.length * size + 31) / 32) * size + 31 + size < 2 ^ 32 := h
  rw [ceilingDivide_eq (by omega) (by omega)]
  have : es.length * size + 32 - 1 = es.length * size + 31 := by omega
  rw [this]
  omega

theorem index_get {size : Nat} {es : List Element} (i : Nat) (hi : i < es.length) : (makeTable size es).getD i 0 = es[i].offset := by
  unfold makeTable
  rw [List.getD_eq_getElem?_getD, List.getElem?_append_left (by simpa using hi)]
  simp [hi]

theorem replicate_test (n j : Nat) : testBit (List.replicate n 0) j = false := by
  unfold testBit
  rw [List.getD_eq_getElem?_getD, List.getElem?_replicate]
  by_cases h : j / 32 < n
  · rw [if_pos h]; simp
  · rw [if_neg h]; simp

/-- **C94.** What the collector visits in the frame of a call is what the compiler recorded for the call. -/
theorem table_round_trip {size : Nat} (hs : size ≠ 0) {es : List Element} (hf : Fits size es.length)
    (ho : es.Pairwise fun a b => a.offset.slt b.offset = true) (ha : ∀ e ∈ es, e.argumentIndex ≤ size) {e : Element} (he : e ∈ es) :
    visited size (makeTable size es) e.offset = some ((List.range size).filter fun i => decide (i < e.argumentIndex) && e.map i) := by
  obtain ⟨k, hk, rfl⟩ := List.mem_iff_getElem.1 he
  unfold visited findMap
  simp only
  rw [if_neg hs, index_size hf]
  have hsr := search_found (table := makeTable size es) hk
    (by
      intro i j hij hj
      rw [index_get i (by omega), index_get j hj]
      exact List.pairwise_iff_getElem.1 ho i j (by omega) hj hij)
    (es.length + 1) 0 es.length (Nat.zero_le _) hk (Nat.le_refl _) (by omega)
  rw [index_get k hk] at hsr
  rw [hsr]
  simp only [Option.map_some, Option.some.injEq]
  apply List.filter_congr
  intro i hi
  rw [List.mem_range] at hi
  have hd : (makeTable size es).drop es.length = copyMaps size 0 es (List.replicate (ceilingDivide (es.length * size) 32) 0) := by
    unfold makeTable
    rw [List.drop_append_of_le_length (by simp), List.drop_of_length_le (by simp), List.nil_append]
  have h0 : es.length * size ≤ (es.length + (es.length * size + 31) / 32) * size := Nat.mul_le_mul_right _ (Nat.le_add_right _ _)
  have h1 : (es.length + (es.length * size + 31) / 32) * size + 31 + size < 2 ^ 32 := hf
  have hc : ceilingDivide (es.length * size) 32 = (es.length * size + 31) / 32 := ceilingDivide_eq (by omega) (by omega)
  have ht := copyMaps_test hs es 0 (List.replicate (ceilingDivide (es.length * size) 32) 0) ha
    (by rw [List.length_replicate, hc, Nat.zero_add]; omega) k hk i hi
  rw [hd, Nat.mul_comm size k]
  rw [Nat.zero_add] at ht
  rw [ht, replicate_test]
  by_cases h : i < es[k].argumentIndex
  · simp [h]
  · simp [h]

/-- **C94.** An address with no call has no map: the VM aborts rather than take another. -/
theorem table_missing {size : Nat} (hs : size ≠ 0) {es : List Element} (hf : Fits size es.length) {x : BitVec 32}
    (hx : ∀ e ∈ es, e.offset ≠ x) : visited size (makeTable size es) x = none := by
  unfold visited findMap
  simp only
  rw [if_neg hs, index_size hf, search_missing (n := es.length) _ _ _ _ (Nat.le_refl _)]
  · rfl
  · intro i hi
    rw [index_get i hi]
    exact (hx _ (List.getElem_mem hi)).symm

def sample : List Element := [⟨8, fun i => i == 1, 3⟩, ⟨20, fun i => i != 1, 2⟩, ⟨33, fun _ => true, 17⟩]

example : visited 17 (makeTable 17 sample) 20 = some [0] :=
  (table_round_trip (by decide) (by unfold Fits; decide) (by decide) (by decide) (e := ⟨20, fun i => i != 1, 2⟩) (by simp [sample])).trans (by decide)

example : visited 17 (makeTable 17 sample) 21 = none := table_missing (by decide) (by unfold Fits; decide) (by decide)

/-- **C94, a disagreement.** A method with so many calls and slots that the product does not fit 32 bits: the part with maps is
taken to begin elsewhere. -/
theorem table_size_wrong (es : List Element) (h : es.length = 20000) :
    (makeTable 3000 es).length - tableSize 3000 (makeTable 3000 es).length ≠ es.length := by
  rw [makeTable_length, h]
  decide

example : (List.replicate 20000 (⟨8, fun _ => true, 1⟩ : Element)).length = 20000 := List.length_replicate ..

end Avian.FrameMap
