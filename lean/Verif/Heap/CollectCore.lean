import Verif.Heap.Collect
import Verif.Heap.BitsetLemmas

/-! The invariant of a collection, and its preservation by the elementary steps. -/

namespace Avian.Collect

/-- what the collector does with an object: leave it and all it refers to alone, visit it in place, or
copy it -/
inductive Kind
  | still | fixed | movable
  deriving DecidableEq

def kind (e : Env) (s : St) (a : Addr) : Kind :=
  if e.mode = .minor ∧ s.region a = .gen2 then .still
  else if s.region a = .fixed then
    if e.mode = .major ∨ s.age a < fixieTenureThreshold then .fixed else .still
  else if s.region a = .immortal then .still
  else .movable

/-- A collection: its parameters, the state at the beginning, the objects that exist then, and the slots
of old objects that it will visit. -/
structure Ctx where
  e : Env
  s0 : St
  U : List Addr
  ps : List (Addr × Nat)

def Ctx.kind (c : Ctx) (a : Addr) : Kind := Collect.kind c.e c.s0 a

structure WF (c : Ctx) : Prop where
  nodup : c.U.Nodup
  zero : 0 ∉ c.U
  closed : ∀ a ∈ c.U, ∀ k ∈ (c.s0.mem a).slots, (c.s0.mem a).ref k = 0 ∨ (c.s0.mem a).ref k ∈ c.U
  roots : ∀ i, c.s0.roots i = 0 ∨ c.s0.roots i ∈ c.U
  sorted : ∀ a ∈ c.U, (c.s0.mem a).slots.Pairwise (· < ·)
  bound : ∀ a ∈ c.U, ∀ k ∈ (c.s0.mem a).slots, k < 2 ^ 31
  allocInj : ∀ i j, c.e.alloc i = c.e.alloc j → i = j
  allocU : ∀ i, c.e.alloc i ∉ c.U
  allocZ : ∀ i, c.e.alloc i ≠ 0
  fwd0 : ∀ a, c.s0.fwd a = none
  marked0 : ∀ a, c.s0.marked a = false
  list0 : c.s0.markedList = []
  vis0 : c.s0.visitedList = []
  count0 : c.s0.count = 0
  region0 : ∀ a ∈ c.U, c.s0.region a ≠ .next1 ∧ c.s0.region a ≠ .next2
  null0 : c.s0.region 0 = .young

/-- reachable by the collector -/
inductive Reach (c : Ctx) : Addr → Prop
  | root (i : Nat) : c.s0.roots i ≠ 0 → Reach c (c.s0.roots i)
  | old (a : Addr) (k : Nat) : (a, k) ∈ c.ps → (c.s0.mem a).ref k ≠ 0 → Reach c ((c.s0.mem a).ref k)
  | step (a : Addr) (k : Nat) : Reach c a → c.kind a ≠ .still → k ∈ (c.s0.mem a).slots →
      (c.s0.mem a).ref k ≠ 0 → Reach c ((c.s0.mem a).ref k)

/-- `r` is what a reference to `b` has to become, and that is settled -/
inductive Done (c : Ctx) (s : St) (b r : Addr) : Prop
  | null (hb : b = 0) (hr : r = 0)
  | still (hb : b ∈ c.U) (hk : c.kind b = .still) (hr : r = b)
  | fixed (hb : b ∈ c.U) (hk : c.kind b = .fixed) (hm : s.marked b = true) (hr : r = b)
  | moved (h : s.fwd b = some r)

/-- slots outside of the movable objects -/
def Outer (c : Ctx) : Slot → Prop
  | .root _ => True
  | .field a k => a ∈ c.U ∧ c.kind a ≠ .movable ∧ k ∈ (c.s0.mem a).slots

/-- owners whose slots have to be remembered -/
def Owner (c : Ctx) (s : St) (x : Addr) : Prop :=
  (s.region x = .fixed ∧ fixieTenureThreshold ≤ s.age x + 1) ∨ s.region x = seg c.e

/-- slots that may be remembered: those of the copies and those outside -/
def Mine (c : Ctx) (s : St) (a : Addr) (k : Nat) : Prop :=
  (∃ o, s.fwd o = some a ∧ k ∈ (c.s0.mem o).slots) ∨ Outer c (.field a k)

structure Core (c : Ctx) (s : St) (raw un : Addr → Nat → Prop) (dn : Slot → Prop) (ip : List Addr) : Prop where
  static : ∀ a ∈ c.U, s.region a = c.s0.region a ∧ s.age a = c.s0.age a
  static0 : s.region 0 = .young
  fwdU : ∀ a d, s.fwd a = some d → a ∈ c.U ∧ c.kind a = .movable ∧ ∃ i, i < s.count ∧ d = c.e.alloc i
  inj : ∀ a b d, s.fwd a = some d → s.fwd b = some d → a = b
  content : ∀ a d, s.fwd a = some d → (s.mem d).info = (c.s0.mem a).info ∧ (s.mem d).slots = (c.s0.mem a).slots
  outside : ∀ a ∈ c.U, s.fwd a = none → (s.mem a).info = (c.s0.mem a).info ∧ (s.mem a).slots = (c.s0.mem a).slots
  fieldRaw : ∀ a d (k : Nat), s.fwd a = some d → k ∈ (c.s0.mem a).slots → raw a k → (s.mem d).ref k = (c.s0.mem a).ref k
  fieldDone : ∀ a d (k : Nat), s.fwd a = some d → k ∈ (c.s0.mem a).slots → ¬ raw a k →
    Done c s ((c.s0.mem a).ref k) ((s.mem d).ref k)
  movRaw : ∀ a ∈ c.U, c.kind a = .movable → s.fwd a = none → ∀ k ∈ (c.s0.mem a).slots, (s.mem a).ref k = (c.s0.mem a).ref k
  outRaw : ∀ sl, Outer c sl → ¬ dn sl → read s sl = read c.s0 sl
  outDone : ∀ sl, Outer c sl → dn sl → Done c s (read c.s0 sl) (read s sl)
  known : ∀ a d (k : Nat), s.fwd a = some d → k ∈ (c.s0.mem a).slots → ¬ un a k → ∃ r, Done c s ((c.s0.mem a).ref k) r
  remField : ∀ a d (k : Nat) r, s.fwd a = some d → k ∈ (c.s0.mem a).slots → ¬ un a k → Owner c s d →
    Done c s ((c.s0.mem a).ref k) r → r ≠ 0 → needsMemory c.e s r = true → s.remembered d k = true
  remOuter : ∀ a (k : Nat) r, Outer c (.field a k) → dn (.field a k) → Owner c s a →
    Done c s ((c.s0.mem a).ref k) r → r ≠ 0 → needsMemory c.e s r = true → s.remembered a k = true
  markedOK : ∀ a, s.marked a = true ↔ a ∈ s.markedList ++ ip ++ s.visitedList
  markedKind : ∀ a, s.marked a = true → a ∈ c.U ∧ c.kind a = .fixed
  listNodup : (s.markedList ++ ip ++ s.visitedList).Nodup
  visDone : ∀ f ∈ s.visitedList, ∀ k ∈ (c.s0.mem f).slots, dn (.field f k)
  dnSub : ∀ f (k : Nat), c.kind f = .fixed → dn (.field f k) → f ∈ ip ++ s.visitedList
  reach : ∀ a, (∃ d, s.fwd a = some d) ∨ s.marked a = true → Reach c a
  remOnly : ∀ a (k : Nat), s.remembered a k = true → c.s0.remembered a k = true ∨ Mine c s a k
  place : ∀ a d, s.fwd a = some d → s.region d = (dest c.e c.s0 a).1 ∧ s.age d = (dest c.e c.s0 a).2

theorem core_congr {c s raw un dn raw' un' dn' ip} (h : Core c s raw un dn ip) (hr : ∀ a k, raw a k ↔ raw' a k)
    (hu : ∀ a k, un a k ↔ un' a k) (hd : ∀ sl, dn sl ↔ dn' sl) : Core c s raw' un' dn' ip := by
  have e1 : raw = raw' := by funext a k; exact propext (hr a k)
  have e2 : un = un' := by funext a k; exact propext (hu a k)
  have e3 : dn = dn' := by funext a; exact propext (hd a)
  rw [← e1, ← e2, ← e3]; exact h

/-- what is not mentioned by `Core` does not matter -/
theorem core_bits {c s raw un dn ip} (h : Core c s raw un dn ip) (b : Addr → Bits.Map) (p : Addr → Addr) :
    Core c { s with bits := b, parent := p } raw un dn ip := by
  have hD : ∀ b' r, Done c { s with bits := b, parent := p } b' r ↔ Done c s b' r := by
    intro b' r
    constructor <;> intro hd <;> cases hd <;> first | exact .null ‹_› ‹_› | exact .still ‹_› ‹_› ‹_› | exact .fixed ‹_› ‹_› ‹_› ‹_› | exact .moved ‹_›
  have hR : ∀ sl, read { s with bits := b, parent := p } sl = read s sl := by intro sl; cases sl <;> rfl
  exact ⟨h.static, h.static0, h.fwdU, h.inj, h.content, h.outside, h.fieldRaw,
    fun a d k h1 h2 h3 => (hD _ _).2 (h.fieldDone a d k h1 h2 h3), h.movRaw,
    fun sl h1 h2 => by rw [hR]; exact h.outRaw sl h1 h2,
    fun sl h1 h2 => by rw [hR]; exact (hD _ _).2 (h.outDone sl h1 h2),
    fun a d k h1 h2 h3 => by
      obtain ⟨r, hr⟩ := h.known a d k h1 h2 h3
      exact ⟨r, (hD _ _).2 hr⟩,
    fun a d k r h1 h2 h3 h4 h5 h6 h7 => h.remField a d k r h1 h2 h3 h4 ((hD _ _).1 h5) h6 h7,
    fun a k r h1 h2 h3 h4 h5 h6 => h.remOuter a k r h1 h2 h3 ((hD _ _).1 h4) h5 h6,
    h.markedOK, h.markedKind, h.listNodup, h.visDone, h.dnSub, h.reach, h.remOnly, h.place⟩

theorem done_fun {c s raw un dn ip b r r'} (w : WF c) (h : Core c s raw un dn ip) (h1 : Done c s b r) (h2 : Done c s b r') :
    r = r' := by
  cases h1 with
  | null hb hr =>
    subst hb
    cases h2 with
    | null _ hr' => rw [hr, hr']
    | still hb => exact absurd hb w.zero
    | fixed hb => exact absurd hb w.zero
    | moved h2 => exact absurd (h.fwdU _ _ h2).1 w.zero
  | still hb hk hr =>
    cases h2 with
    | null h0 => subst h0; exact absurd hb w.zero
    | still _ _ hr' => rw [hr, hr']
    | fixed _ _ _ hr' => rw [hr, hr']
    | moved h2 => have := (h.fwdU _ _ h2).2.1; rw [hk] at this; cases this
  | fixed hb hk hm hr =>
    cases h2 with
    | null h0 => subst h0; exact absurd hb w.zero
    | still _ _ hr' => rw [hr, hr']
    | fixed _ _ _ hr' => rw [hr, hr']
    | moved h2 => have := (h.fwdU _ _ h2).2.1; rw [hk] at this; cases this
  | moved h1 =>
    cases h2 with
    | null h0 => subst h0; exact absurd (h.fwdU _ _ h1).1 w.zero
    | still _ hk => have := (h.fwdU _ _ h1).2.1; rw [hk] at this; cases this
    | fixed _ hk => have := (h.fwdU _ _ h1).2.1; rw [hk] at this; cases this
    | moved h2 => rw [h1] at h2; exact Option.some.inj h2

/-- where the result of a settled reference can be -/
theorem done_place {c s raw un dn ip b r} (h : Core c s raw un dn ip) (h1 : Done c s b r) :
    r = 0 ∨ r ∈ c.U ∨ ∃ i, i < s.count ∧ r = c.e.alloc i := by
  cases h1 with
  | null _ hr => exact Or.inl hr
  | still hb _ hr => subst hr; exact Or.inr (Or.inl hb)
  | fixed hb _ _ hr => subst hr; exact Or.inr (Or.inl hb)
  | moved h1 => exact Or.inr (Or.inr (h.fwdU _ _ h1).2.2)

theorem outer_fwd {c s raw un dn ip a} {k : Nat} (h : Core c s raw un dn ip) (ho : Outer c (.field a k)) : s.fwd a = none := by
  cases hf : s.fwd a with
  | none => rfl
  | some d => exact absurd (h.fwdU a d hf).2.1 ho.2.1

/-- a copy is not one of the old objects -/
theorem copy_notU {c s raw un dn ip a d} (w : WF c) (h : Core c s raw un dn ip) (hf : s.fwd a = some d) : d ∉ c.U := by
  obtain ⟨_, _, i, _, rfl⟩ := h.fwdU a d hf
  exact w.allocU i

/-! ### marking a non-moving object -/

theorem core_mark {c s raw un dn ip o} (w : WF c) (h : Core c s raw un dn ip) (hU : o ∈ c.U) (hk : c.kind o = .fixed)
    (hm : s.marked o = false) (hr : Reach c o) :
    Core c { s with marked := upd s.marked o true, markedList := o :: s.markedList } raw un dn ip := by
  generalize hs' : ({ s with marked := upd s.marked o true, markedList := o :: s.markedList } : St) = s'
  have e1 : s'.region = s.region := by subst hs'; rfl
  have e2 : s'.age = s.age := by subst hs'; rfl
  have e3 : s'.fwd = s.fwd := by subst hs'; rfl
  have e4 : s'.count = s.count := by subst hs'; rfl
  have e5 : s'.mem = s.mem := by subst hs'; rfl
  have e6 : s'.remembered = s.remembered := by subst hs'; rfl
  have e7 : s'.visitedList = s.visitedList := by subst hs'; rfl
  have e8 : s'.markedList = o :: s.markedList := by subst hs'; rfl
  have e9 : ∀ a, s'.marked a = true ↔ (a = o ∨ s.marked a = true) := by
    intro a; subst hs'; simp only [upd]
    by_cases ha : a = o <;> simp [ha]
  have hR : ∀ sl, read s' sl = read s sl := by intro sl; subst hs'; cases sl <;> rfl
  have hD : ∀ b r, Done c s b r → Done c s' b r := by
    intro b r hd
    cases hd with
    | null h1 h2 => exact .null h1 h2
    | still h1 h2 h3 => exact .still h1 h2 h3
    | fixed h1 h2 h3 h4 => exact .fixed h1 h2 ((e9 b).2 (Or.inr h3)) h4
    | moved h1 => exact .moved (by rw [e3]; exact h1)
  have hD' : ∀ b r, Done c s' b r → b ≠ o → Done c s b r := by
    intro b r hd hb
    cases hd with
    | null h1 h2 => exact .null h1 h2
    | still h1 h2 h3 => exact .still h1 h2 h3
    | fixed h1 h2 h3 h4 =>
      rcases (e9 b).1 h3 with h5 | h5
      · exact absurd h5 hb
      · exact .fixed h1 h2 h5 h4
    | moved h1 => exact .moved (by rw [e3] at h1; exact h1)
  have hno : o ∉ s.markedList ++ ip ++ s.visitedList := by
    intro hmem
    have := (h.markedOK o).2 hmem
    rw [hm] at this; cases this
  -- a settled reference never leads to `o`, which is not marked yet
  have hnd : ∀ r, Done c s o r → False := by
    intro r hd
    cases hd with
    | null h1 => rw [h1] at hU; exact w.zero hU
    | still _ h2 => rw [hk] at h2; cases h2
    | fixed _ _ h3 => rw [hm] at h3; cases h3
    | moved h1 => have := (h.fwdU _ _ h1).2.1; rw [hk] at this; cases this
  have hO : ∀ x, Owner c s' x → Owner c s x := by
    intro x hx; unfold Owner at hx ⊢; rw [e1, e2] at hx; exact hx
  have hN : ∀ r, needsMemory c.e s' r = needsMemory c.e s r := by
    intro r; unfold needsMemory; rw [e1, e2]
  refine ⟨by rw [e1, e2]; exact h.static, by rw [e1]; exact h.static0, by rw [e3, e4]; exact h.fwdU, by rw [e3]; exact h.inj,
    by rw [e3, e5]; exact h.content, by rw [e3, e5]; exact h.outside, by rw [e3, e5]; exact h.fieldRaw, ?_,
    by rw [e3, e5]; exact h.movRaw, ?_, ?_, ?_, ?_, ?_, ?_, ?_, ?_, ?_, ?_, ?_, ?_, by rw [e1, e2, e3]; exact h.place⟩
  · rw [e3, e5]; intro a d k h1 h2 h3; exact hD _ _ (h.fieldDone a d k h1 h2 h3)
  · intro sl h1 h2; rw [hR]; exact h.outRaw sl h1 h2
  · intro sl h1 h2; rw [hR]; exact hD _ _ (h.outDone sl h1 h2)
  · rw [e3]; intro a d k h1 h2 h3
    obtain ⟨r, hr⟩ := h.known a d k h1 h2 h3
    exact ⟨r, hD _ _ hr⟩
  · rw [e3, e6]; intro a d k r h1 h2 h3 h4 h5 h6 h7
    obtain ⟨r', hr'⟩ := h.known a d k h1 h2 h3
    refine h.remField a d k r h1 h2 h3 (hO _ h4) (hD' _ _ h5 ?_) h6 (by rw [← hN]; exact h7)
    intro e; rw [e] at hr'; exact hnd _ hr'
  · rw [e6]; intro a k r h1 h2 h3 h4 h5 h6
    have hr' := h.outDone _ h1 h2
    refine h.remOuter a k r h1 h2 (hO _ h3) (hD' _ _ h4 ?_) h5 (by rw [← hN]; exact h6)
    intro e
    have : read c.s0 (.field a k) = o := e
    rw [this] at hr'; exact hnd _ hr'
  · intro a; rw [e9, e8, e7, h.markedOK]; simp
  · intro a ha
    rcases (e9 a).1 ha with rfl | ha
    · exact ⟨hU, hk⟩
    · exact h.markedKind a ha
  · rw [e8, e7]
    exact List.nodup_cons.2 ⟨hno, h.listNodup⟩
  · rw [e7]; exact h.visDone
  · rw [e7]; exact h.dnSub
  · rw [e3]; intro a ha
    rcases ha with ha | ha
    · exact h.reach a (Or.inl ha)
    · rcases (e9 a).1 ha with rfl | ha
      · exact hr
      · exact h.reach a (Or.inr ha)
  · intro a k hr'; unfold Mine; rw [e3]; rw [e6] at hr'; exact h.remOnly a k hr'

/-! ### copying -/

theorem core_copy {c s raw un dn ip o} (w : WF c) (h : Core c s raw un dn ip) (hU : o ∈ c.U) (hk : c.kind o = .movable)
    (hf : s.fwd o = none) (hr : Reach c o) :
    Core c (copy c.e s o).1 (fun a k => raw a k ∨ a = o) (fun a k => un a k ∨ a = o) dn ip := by
  generalize hd : c.e.alloc s.count = d
  generalize hs' : (copy c.e s o).1 = s'
  have hdU : d ∉ c.U := by subst hd; exact w.allocU _
  have hod : o ≠ d := fun e => hdU (e ▸ hU)
  have e1 : ∀ x, x ≠ d → s'.region x = s.region x := by intro x hx; subst hs'; simp [copy, upd, hd, hx]
  have e2 : ∀ x, x ≠ d → s'.age x = s.age x := by intro x hx; subst hs'; simp [copy, upd, hd, hx]
  have e3 : ∀ x, x ≠ o → s'.fwd x = s.fwd x := by intro x hx; subst hs'; simp [copy, upd, hx]
  have e3' : s'.fwd o = some d := by subst hs'; simp [copy, upd, hd]
  have e4 : s'.count = s.count + 1 := by subst hs'; rfl
  have e5 : ∀ x, x ≠ o → x ≠ d → s'.mem x = s.mem x := by
    intro x hx hx'; subst hs'; simp [copy, upd, hd, hx, hx']
  have e5' : s'.mem d = s.mem o := by subst hs'; simp [copy, upd, hd, Ne.symm hod]
  have e6 : s'.remembered = s.remembered := by subst hs'; rfl
  have e7 : s'.visitedList = s.visitedList := by subst hs'; rfl
  have e8 : s'.markedList = s.markedList := by subst hs'; rfl
  have e9 : s'.marked = s.marked := by subst hs'; rfl
  have e10 : s'.roots = s.roots := by subst hs'; rfl
  -- old copies are somewhere else
  have hcp : ∀ a x, s.fwd a = some x → x ≠ d ∧ x ≠ o ∧ a ≠ o := by
    intro a x hx
    obtain ⟨h1, h2, i, h3, h4⟩ := h.fwdU a x hx
    refine ⟨?_, ?_, ?_⟩
    · subst hd; rw [h4]; intro e; have := w.allocInj _ _ e; omega
    · rw [h4]; intro e; exact w.allocU i (e ▸ hU)
    · intro e; rw [e, hf] at hx; cases hx
  have hfw : ∀ a x, s'.fwd a = some x → (a = o ∧ x = d) ∨ s.fwd a = some x := by
    intro a x hx
    by_cases ha : a = o
    · subst ha; rw [e3'] at hx; exact Or.inl ⟨rfl, (Option.some.inj hx).symm⟩
    · rw [e3 a ha] at hx; exact Or.inr hx
  have hfw' : ∀ a x, s.fwd a = some x → s'.fwd a = some x := by
    intro a x hx; rw [e3 a (hcp a x hx).2.2]; exact hx
  have hD : ∀ b r, Done c s b r → Done c s' b r := by
    intro b r hd
    cases hd with
    | null h1 h2 => exact .null h1 h2
    | still h1 h2 h3 => exact .still h1 h2 h3
    | fixed h1 h2 h3 h4 => exact .fixed h1 h2 (by rw [e9]; exact h3) h4
    | moved h1 => exact .moved (hfw' _ _ h1)
  have hD' : ∀ b r, Done c s' b r → b ≠ o → Done c s b r := by
    intro b r hd hb
    cases hd with
    | null h1 h2 => exact .null h1 h2
    | still h1 h2 h3 => exact .still h1 h2 h3
    | fixed h1 h2 h3 h4 => exact .fixed h1 h2 (by rw [← e9]; exact h3) h4
    | moved h1 => exact .moved (by rw [e3 b hb] at h1; exact h1)
  have hnd : ∀ r, Done c s o r → False := by
    intro r hd
    cases hd with
    | null h1 => rw [h1] at hU; exact w.zero hU
    | still _ h2 => rw [hk] at h2; cases h2
    | fixed _ h2 => rw [hk] at h2; cases h2
    | moved h1 => rw [hf] at h1; cases h1
  have hdp : ∀ b r, Done c s b r → r ≠ 0 → r ≠ d := by
    intro b r hdn h0
    rcases done_place h hdn with h1 | h1 | ⟨i, h1, h2⟩
    · exact absurd h1 h0
    · intro e; rw [e] at h1; exact hdU h1
    · rw [h2]; subst hd; intro e; have := w.allocInj _ _ e; omega
  have hN : ∀ r, r ≠ d → needsMemory c.e s' r = needsMemory c.e s r := by
    intro r hr; unfold needsMemory; rw [e1 r hr, e2 r hr]
  have hO : ∀ x, x ≠ d → Owner c s' x → Owner c s x := by
    intro x hx h1; unfold Owner at h1 ⊢; rw [e1 x hx, e2 x hx] at h1; exact h1
  have hne : ∀ a ∈ c.U, a ≠ d := fun a ha e => hdU (e ▸ ha)
  have hR : ∀ sl, Outer c sl → read s' sl = read s sl := by
    intro sl ho
    cases sl with
    | root i => show s'.roots i = s.roots i; rw [e10]
    | field a k =>
      show (s'.mem a).ref k = (s.mem a).ref k
      rw [e5 a (fun e => ho.2.1 (e ▸ hk)) (hne a ho.1)]
  refine ⟨?_, ?_, ?_, ?_, ?_, ?_, ?_, ?_, ?_, ?_, ?_, ?_, ?_, ?_, ?_, ?_, ?_, ?_, ?_, ?_, ?_, ?_⟩
  · intro a ha; rw [e1 a (hne a ha), e2 a (hne a ha)]; exact h.static a ha
  · rw [e1 0 (by subst hd; exact (w.allocZ _).symm)]; exact h.static0
  · intro a x hx
    rcases hfw a x hx with ⟨rfl, rfl⟩ | hx
    · exact ⟨hU, hk, s.count, by omega, hd.symm⟩
    · obtain ⟨h1, h2, i, h3, h4⟩ := h.fwdU a x hx
      exact ⟨h1, h2, i, by omega, h4⟩
  · intro a b x ha hb
    rcases hfw a x ha with ⟨ha1, ha2⟩ | ha <;> rcases hfw b x hb with ⟨hb1, hb2⟩ | hb
    · rw [ha1, hb1]
    · exact absurd ha2 (hcp b x hb).1
    · exact absurd hb2 (hcp a x ha).1
    · exact h.inj a b x ha hb
  · intro a x hx
    rcases hfw a x hx with ⟨rfl, rfl⟩ | hx
    · rw [e5']; exact h.outside a hU hf
    · rw [e5 x (hcp a x hx).2.1 (hcp a x hx).1]; exact h.content a x hx
  · intro a ha hfa
    have hao : a ≠ o := by intro e; rw [e, e3'] at hfa; cases hfa
    rw [e5 a hao (hne a ha)]; rw [e3 a hao] at hfa
    exact h.outside a ha hfa
  · intro a x k hx hk' hraw
    rcases hfw a x hx with ⟨rfl, rfl⟩ | hx
    · rw [e5']; exact h.movRaw a hU hk hf k hk'
    · rw [e5 x (hcp a x hx).2.1 (hcp a x hx).1]
      rcases hraw with hraw | hraw
      · exact h.fieldRaw a x k hx hk' hraw
      · exact absurd hraw (hcp a x hx).2.2
  · intro a x k hx hk' hraw
    rcases hfw a x hx with ⟨rfl, rfl⟩ | hx
    · exact absurd (Or.inr rfl) hraw
    · rw [e5 x (hcp a x hx).2.1 (hcp a x hx).1]
      exact hD _ _ (h.fieldDone a x k hx hk' (fun e => hraw (Or.inl e)))
  · intro a ha hka hfa k hk'
    have hao : a ≠ o := by intro e; rw [e, e3'] at hfa; cases hfa
    rw [e5 a hao (hne a ha)]; rw [e3 a hao] at hfa
    exact h.movRaw a ha hka hfa k hk'
  · intro sl h1 h2; rw [hR sl h1]; exact h.outRaw sl h1 h2
  · intro sl h1 h2; rw [hR sl h1]; exact hD _ _ (h.outDone sl h1 h2)
  · intro a x k hx hk' hun
    rcases hfw a x hx with ⟨rfl, rfl⟩ | hx
    · exact absurd (Or.inr rfl) hun
    · obtain ⟨r, hr⟩ := h.known a x k hx hk' (fun e => hun (Or.inl e))
      exact ⟨r, hD _ _ hr⟩
  · intro a x k r hx hk' hun ho hdn h0 hnm
    rcases hfw a x hx with ⟨rfl, rfl⟩ | hx
    · exact absurd (Or.inr rfl) hun
    · obtain ⟨r', hr'⟩ := h.known a x k hx hk' (fun e => hun (Or.inl e))
      have hdn' := hD' _ _ hdn (by intro e; rw [e] at hr'; exact hnd _ hr')
      rw [e6]
      exact h.remField a x k r hx hk' (fun e => hun (Or.inl e)) (hO x (hcp a x hx).1 ho) hdn' h0
        (by rw [← hN r (hdp _ _ hdn' h0)]; exact hnm)
  · intro a k r h1 h2 h3 h4 h5 h6
    have hr' := h.outDone _ h1 h2
    have hdn' := hD' _ _ h4 (by
      intro e
      have : read c.s0 (.field a k) = o := e
      rw [this] at hr'; exact hnd _ hr')
    rw [e6]
    exact h.remOuter a k r h1 h2 (hO a (hne a h1.1) h3) hdn' h5 (by rw [← hN r (hdp _ _ hdn' h5)]; exact h6)
  · rw [e9, e8, e7]; exact h.markedOK
  · rw [e9]; exact h.markedKind
  · rw [e8, e7]; exact h.listNodup
  · rw [e7]; exact h.visDone
  · rw [e7]; exact h.dnSub
  · rw [e9]; intro a ha
    rcases ha with ⟨x, hx⟩ | ha
    · rcases hfw a x hx with ⟨rfl, rfl⟩ | hx
      · exact hr
      · exact h.reach a (Or.inl ⟨x, hx⟩)
    · exact h.reach a (Or.inr ha)
  · rw [e6]; intro a k hr'
    rcases h.remOnly a k hr' with h1 | ⟨x, h1, h2⟩ | h1
    · exact Or.inl h1
    · exact Or.inr (Or.inl ⟨x, hfw' _ _ h1, h2⟩)
    · exact Or.inr (Or.inr h1)
  · intro a x hx
    rcases hfw a x hx with ⟨rfl, rfl⟩ | hx
    · have h1 : s'.region x = (dest c.e s a).1 := by subst hs'; simp [copy, upd, hd]
      have h2 : s'.age x = (dest c.e s a).2 := by subst hs'; simp [copy, upd, hd]
      have h3 : dest c.e s a = dest c.e c.s0 a := by
        unfold dest; rw [(h.static a hU).1, (h.static a hU).2]
      rw [h1, h2, h3]; exact ⟨rfl, rfl⟩
    · rw [e1 x (hcp a x hx).1, e2 x (hcp a x hx).1]; exact h.place a x hx

/-! ### remembering more -/

theorem core_remember {c s raw un dn ip} (h : Core c s raw un dn ip) (x : Addr) (j : Nat)
    (hx : Mine c s x j) :
    Core c (remember s x j true) raw un dn ip := by
  have hD : ∀ b r, Done c (remember s x j true) b r ↔ Done c s b r := by
    intro b r
    constructor <;> intro hd <;> cases hd <;> first | exact .null ‹_› ‹_› | exact .still ‹_› ‹_› ‹_› | exact .fixed ‹_› ‹_› ‹_› ‹_› | exact .moved ‹_›
  have hR : ∀ sl, read (remember s x j true) sl = read s sl := by intro sl; cases sl <;> rfl
  have hM : ∀ a k, s.remembered a k = true → (remember s x j true).remembered a k = true := by
    intro a k hr; simp only [remember]; split
    · rfl
    · exact hr
  exact ⟨h.static, h.static0, h.fwdU, h.inj, h.content, h.outside, h.fieldRaw,
    fun a d k h1 h2 h3 => (hD _ _).2 (h.fieldDone a d k h1 h2 h3), h.movRaw,
    fun sl h1 h2 => by rw [hR]; exact h.outRaw sl h1 h2,
    fun sl h1 h2 => by rw [hR]; exact (hD _ _).2 (h.outDone sl h1 h2),
    fun a d k h1 h2 h3 => by
      obtain ⟨r, hr⟩ := h.known a d k h1 h2 h3
      exact ⟨r, (hD _ _).2 hr⟩,
    fun a d k r h1 h2 h3 h4 h5 h6 h7 => hM _ _ (h.remField a d k r h1 h2 h3 h4 ((hD _ _).1 h5) h6 h7),
    fun a k r h1 h2 h3 h4 h5 h6 => hM _ _ (h.remOuter a k r h1 h2 h3 ((hD _ _).1 h4) h5 h6),
    h.markedOK, h.markedKind, h.listNodup, h.visDone, h.dnSub, h.reach, fun a k hr => by
      by_cases he : a = x ∧ k = j
      · rw [he.1, he.2]; exact Or.inr hx
      · simp only [remember] at hr; rw [if_neg he] at hr; exact h.remOnly a k hr, h.place⟩

/-- forgetting is harmless for a slot that is still to be visited -/
theorem core_forget {c s raw un dn ip} (w : WF c) (h : Core c s raw un dn ip) {x : Addr} {j : Nat} (hx : x ∈ c.U)
    (hnd : ¬ dn (.field x j)) : Core c (remember s x j false) raw un dn ip := by
  have hD : ∀ b r, Done c (remember s x j false) b r ↔ Done c s b r := by
    intro b r
    constructor <;> intro hd <;> cases hd <;> first | exact .null ‹_› ‹_› | exact .still ‹_› ‹_› ‹_› | exact .fixed ‹_› ‹_› ‹_› ‹_› | exact .moved ‹_›
  have hR : ∀ sl, read (remember s x j false) sl = read s sl := by intro sl; cases sl <;> rfl
  have hM : ∀ a k, (a = x → k = j → False) → s.remembered a k = true → (remember s x j false).remembered a k = true := by
    intro a k hne hr; simp only [remember]; rw [if_neg (fun e => hne e.1 e.2)]; exact hr
  exact ⟨h.static, h.static0, h.fwdU, h.inj, h.content, h.outside, h.fieldRaw,
    fun a d k h1 h2 h3 => (hD _ _).2 (h.fieldDone a d k h1 h2 h3), h.movRaw,
    fun sl h1 h2 => by rw [hR]; exact h.outRaw sl h1 h2,
    fun sl h1 h2 => by rw [hR]; exact (hD _ _).2 (h.outDone sl h1 h2),
    fun a d k h1 h2 h3 => by
      obtain ⟨r, hr⟩ := h.known a d k h1 h2 h3
      exact ⟨r, (hD _ _).2 hr⟩,
    fun a d k r h1 h2 h3 h4 h5 h6 h7 => hM _ _ (fun e _ => copy_notU w h h1 (e ▸ hx))
      (h.remField a d k r h1 h2 h3 h4 ((hD _ _).1 h5) h6 h7),
    fun a k r h1 h2 h3 h4 h5 h6 => hM _ _ (fun e1 e2 => hnd (e1 ▸ e2 ▸ h2))
      (h.remOuter a k r h1 h2 h3 ((hD _ _).1 h4) h5 h6),
    h.markedOK, h.markedKind, h.listNodup, h.visDone, h.dnSub, h.reach, fun a k hr => by
      by_cases he : a = x ∧ k = j
      · simp only [remember] at hr; rw [if_pos he] at hr; cases hr
      · simp only [remember] at hr; rw [if_neg he] at hr; exact h.remOnly a k hr, h.place⟩

/-! ### storing the result in a field of a copy -/

theorem core_setRef {c s raw un dn ip a d v} {k : Nat} (w : WF c) (h : Core c s raw un dn ip) (hf : s.fwd a = some d)
    (hv : Done c s ((c.s0.mem a).ref k) v) (hu : ¬ un a k) :
    Core c (setRef s d k v) (fun x j => raw x j ∧ ¬ (x = a ∧ j = k)) un dn ip := by
  generalize hs' : setRef s d k v = s'
  have hdU := copy_notU w h hf
  have e5 : ∀ x, x ≠ d → s'.mem x = s.mem x := by intro x hx; subst hs'; simp [setRef, upd, hx]
  have e5' : ∀ x, (s'.mem x).info = (s.mem x).info ∧ (s'.mem x).slots = (s.mem x).slots := by
    intro x; subst hs'
    by_cases hx : x = d
    · subst hx; simp [setRef, upd]
    · simp [setRef, upd, hx]
  have e6 : (s'.mem d).ref k = v := by subst hs'; simp [setRef, upd]
  have e6' : ∀ j, j ≠ k → (s'.mem d).ref j = (s.mem d).ref j := by
    intro j hj; subst hs'; simp [setRef, upd, hj]
  have hD : ∀ b r, Done c s' b r ↔ Done c s b r := by
    intro b r; subst hs'
    constructor <;> intro hd <;> cases hd <;> first | exact .null ‹_› ‹_› | exact .still ‹_› ‹_› ‹_› | exact .fixed ‹_› ‹_› ‹_› ‹_› | exact .moved ‹_›
  have hR : ∀ sl, Outer c sl → read s' sl = read s sl := by
    intro sl ho
    cases sl with
    | root i => subst hs'; rfl
    | field x j =>
      show (s'.mem x).ref j = (s.mem x).ref j
      rw [e5 x (fun e => hdU (e ▸ ho.1))]
  have es : s' = { s with mem := s'.mem } := by subst hs'; rfl
  have f1 : s'.fwd = s.fwd := by rw [es]
  have f2 : s'.region = s.region := by rw [es]
  have f3 : s'.age = s.age := by rw [es]
  have f4 : s'.count = s.count := by rw [es]
  have f5 : s'.remembered = s.remembered := by rw [es]
  have f6 : s'.marked = s.marked := by rw [es]
  have f7 : s'.markedList = s.markedList := by rw [es]
  have f8 : s'.visitedList = s.visitedList := by rw [es]
  have hO : ∀ x, Owner c s' x → Owner c s x := by
    intro x hx; unfold Owner at hx ⊢; rw [f2, f3] at hx; exact hx
  have hN : ∀ r, needsMemory c.e s' r = needsMemory c.e s r := by
    intro r; unfold needsMemory; rw [f2, f3]
  have hother : ∀ x y, s.fwd x = some y → x ≠ a → y ≠ d := by
    intro x y hx hxa e; rw [e] at hx; exact hxa (h.inj x a d hx hf)
  refine ⟨by rw [f2, f3]; exact h.static, by rw [f2]; exact h.static0, by rw [f1, f4]; exact h.fwdU, by rw [f1]; exact h.inj, ?_, ?_, ?_, ?_, ?_,
    ?_, ?_, ?_, ?_, ?_, by rw [f6, f7, f8]; exact h.markedOK, by rw [f6]; exact h.markedKind,
    by rw [f7, f8]; exact h.listNodup, by rw [f8]; exact h.visDone, by rw [f8]; exact h.dnSub,
    by rw [f1, f6]; exact h.reach, by unfold Mine; rw [f1, f5]; exact h.remOnly, by rw [f1, f2, f3]; exact h.place⟩
  · rw [f1]; intro x y hx; rw [(e5' y).1, (e5' y).2]; exact h.content x y hx
  · rw [f1]; intro x hx hfx; rw [(e5' x).1, (e5' x).2]; exact h.outside x hx hfx
  · rw [f1]; intro x y j hx hj hraw
    by_cases hxa : x = a
    · subst hxa
      have hy : y = d := Option.some.inj (hx.symm.trans hf)
      subst hy
      rw [e6' j (fun e => hraw.2 ⟨rfl, e⟩)]; exact h.fieldRaw x y j hx hj hraw.1
    · rw [e5 y (hother x y hx hxa)]; exact h.fieldRaw x y j hx hj hraw.1
  · rw [f1]; intro x y j hx hj hraw
    by_cases hxa : x = a
    · subst hxa
      have hy : y = d := Option.some.inj (hx.symm.trans hf)
      subst hy
      by_cases hjk : j = k
      · subst hjk; rw [e6]; exact (hD _ _).2 hv
      · rw [e6' j hjk]
        exact (hD _ _).2 (h.fieldDone x y j hx hj (fun e => hraw ⟨e, fun e' => hjk e'.2⟩))
    · rw [e5 y (hother x y hx hxa)]
      exact (hD _ _).2 (h.fieldDone x y j hx hj (fun e => hraw ⟨e, fun e' => hxa e'.1⟩))
  · rw [f1]; intro x hx h1 h2 j hj; rw [e5 x (fun e => hdU (e ▸ hx))]; exact h.movRaw x hx h1 h2 j hj
  · intro sl h1 h2; rw [hR sl h1]; exact h.outRaw sl h1 h2
  · intro sl h1 h2; rw [hR sl h1]; exact (hD _ _).2 (h.outDone sl h1 h2)
  · rw [f1]; intro x y j hx hj hun
    obtain ⟨r, hr⟩ := h.known x y j hx hj hun
    exact ⟨r, (hD _ _).2 hr⟩
  · rw [f1, f5]; intro x y j r h1 h2 h3 h4 h5 h6 h7
    exact h.remField x y j r h1 h2 h3 (hO _ h4) ((hD _ _).1 h5) h6 (by rw [← hN]; exact h7)
  · rw [f5]; intro x j r h1 h2 h3 h4 h5 h6
    exact h.remOuter x j r h1 h2 (hO _ h3) ((hD _ _).1 h4) h5 (by rw [← hN]; exact h6)

/-- a field has been looked at -/
theorem core_touch {c s raw un dn ip a d v} {k : Nat} (w : WF c) (h : Core c s raw un dn ip) (hf : s.fwd a = some d)
    (hv : Done c s ((c.s0.mem a).ref k) v)
    (hrem : Owner c s d → v ≠ 0 → needsMemory c.e s v = true → s.remembered d k = true) :
    Core c s raw (fun x j => un x j ∧ ¬ (x = a ∧ j = k)) dn ip := by
  refine ⟨h.static, h.static0, h.fwdU, h.inj, h.content, h.outside, h.fieldRaw, h.fieldDone, h.movRaw, h.outRaw, h.outDone,
    ?_, ?_, h.remOuter, h.markedOK, h.markedKind, h.listNodup, h.visDone, h.dnSub, h.reach, h.remOnly, h.place⟩
  · intro x y j hx hj hun
    by_cases he : x = a ∧ j = k
    · obtain ⟨rfl, rfl⟩ := he; exact ⟨v, hv⟩
    · exact h.known x y j hx hj (fun e => hun ⟨e, he⟩)
  · intro x y j r hx hj hun ho hd h0 hn
    by_cases he : x = a ∧ j = k
    · obtain ⟨rfl, rfl⟩ := he
      have hy : y = d := Option.some.inj (hx.symm.trans hf)
      subst hy
      have hrv := done_fun w h hd hv
      subst hrv
      exact hrem ho h0 hn
    · exact h.remField x y j r hx hj (fun e => hun ⟨e, he⟩) ho hd h0 hn

/-! ### storing the result in a slot outside -/

theorem core_write {c s raw un dn ip v} {sl : Slot} (w : WF c) (h : Core c s raw un dn ip) (ho : Outer c sl)
    (hv : Done c s (read c.s0 sl) v)
    (hip : ∀ f k, sl = .field f k → c.kind f = .fixed → f ∈ ip ++ s.visitedList)
    (hrem : ∀ a k, sl = .field a k → Owner c s a → v ≠ 0 → needsMemory c.e s v = true → s.remembered a k = true) :
    Core c (write s sl v) raw un (fun x => dn x ∨ x = sl) ip := by
  generalize hs' : write s sl v = s'
  have es : s' = { s with mem := s'.mem, roots := s'.roots } := by subst hs'; cases sl <;> rfl
  have f1 : s'.fwd = s.fwd := by rw [es]
  have f2 : s'.region = s.region := by rw [es]
  have f3 : s'.age = s.age := by rw [es]
  have f4 : s'.count = s.count := by rw [es]
  have f5 : s'.remembered = s.remembered := by rw [es]
  have f6 : s'.marked = s.marked := by rw [es]
  have f7 : s'.markedList = s.markedList := by rw [es]
  have f8 : s'.visitedList = s.visitedList := by rw [es]
  have hD : ∀ b r, Done c s' b r ↔ Done c s b r := by
    intro b r
    constructor <;> intro hd <;> cases hd with
    | null h1 h2 => exact .null h1 h2
    | still h1 h2 h3 => exact .still h1 h2 h3
    | fixed h1 h2 h3 h4 => exact .fixed h1 h2 (by simpa [f6] using h3) h4
    | moved h1 => exact .moved (by simpa [f1] using h1)
  have hself : read s' sl = v := by
    subst hs'
    cases sl with
    | root i => simp [write, read]
    | field a k => simp [write, read, setRef, upd]
  have hR : ∀ x, x ≠ sl → read s' x = read s x := by
    intro x hx; subst hs'
    cases sl with
    | root i =>
      cases x with
      | root j =>
        have : j ≠ i := fun e => hx (by rw [e])
        simp [write, read, this]
      | field a k => rfl
    | field a k =>
      cases x with
      | root j => rfl
      | field b j =>
        by_cases hb : b = a
        · subst hb
          have : j ≠ k := fun e => hx (by rw [e])
          simp [write, read, setRef, upd, this]
        · simp [write, read, setRef, upd, hb]
  have hi : ∀ x, (s'.mem x).info = (s.mem x).info ∧ (s'.mem x).slots = (s.mem x).slots := by
    intro x; subst hs'
    cases sl with
    | root i => exact ⟨rfl, rfl⟩
    | field a k =>
      by_cases hx : x = a
      · subst hx; simp [write, setRef, upd]
      · simp [write, setRef, upd, hx]
  -- objects that are not outside do not change
  have hm : ∀ x, (x ∉ c.U ∨ c.kind x = .movable) → s'.mem x = s.mem x := by
    intro x hx; subst hs'
    cases sl with
    | root i => rfl
    | field a k =>
      have : x ≠ a := by
        intro e; subst e
        rcases hx with hx | hx
        · exact hx ho.1
        · exact ho.2.1 hx
      simp [write, setRef, upd, this]
  have hO : ∀ x, Owner c s' x → Owner c s x := by
    intro x hx; unfold Owner at hx ⊢; rw [f2, f3] at hx; exact hx
  have hN : ∀ r, needsMemory c.e s' r = needsMemory c.e s r := by
    intro r; unfold needsMemory; rw [f2, f3]
  refine ⟨by rw [f2, f3]; exact h.static, by rw [f2]; exact h.static0, by rw [f1, f4]; exact h.fwdU, by rw [f1]; exact h.inj, ?_, ?_, ?_, ?_, ?_,
    ?_, ?_, ?_, ?_, ?_, by rw [f6, f7, f8]; exact h.markedOK, by rw [f6]; exact h.markedKind,
    by rw [f7, f8]; exact h.listNodup, ?_, ?_, by rw [f1, f6]; exact h.reach, by unfold Mine; rw [f1, f5]; exact h.remOnly, by rw [f1, f2, f3]; exact h.place⟩
  · rw [f1]; intro x y hx; rw [(hi y).1, (hi y).2]; exact h.content x y hx
  · rw [f1]; intro x hx hfx; rw [(hi x).1, (hi x).2]; exact h.outside x hx hfx
  · rw [f1]; intro x y j hx hj hraw
    rw [hm y (Or.inl (copy_notU w h hx))]; exact h.fieldRaw x y j hx hj hraw
  · rw [f1]; intro x y j hx hj hraw
    rw [hm y (Or.inl (copy_notU w h hx))]; exact (hD _ _).2 (h.fieldDone x y j hx hj hraw)
  · rw [f1]; intro x hx h1 h2 j hj
    rw [hm x (Or.inr h1)]; exact h.movRaw x hx h1 h2 j hj
  · intro x h1 h2
    rw [hR x (fun e => h2 (Or.inr e))]; exact h.outRaw x h1 (fun e => h2 (Or.inl e))
  · intro x h1 h2
    by_cases hx : x = sl
    · subst hx; rw [hself]; exact (hD _ _).2 hv
    · rw [hR x hx]
      rcases h2 with h2 | h2
      · exact (hD _ _).2 (h.outDone x h1 h2)
      · exact absurd h2 hx
  · rw [f1]; intro x y j hx hj hun
    obtain ⟨r, hr⟩ := h.known x y j hx hj hun
    exact ⟨r, (hD _ _).2 hr⟩
  · rw [f1, f5]; intro x y j r h1 h2 h3 h4 h5 h6 h7
    exact h.remField x y j r h1 h2 h3 (hO _ h4) ((hD _ _).1 h5) h6 (by rw [← hN]; exact h7)
  · rw [f5]; intro x j r h1 h2 h3 h4 h5 h6
    by_cases hx : (.field x j : Slot) = sl
    · have hd := (hD _ _).1 h4
      have hv' : Done c s ((c.s0.mem x).ref j) v := by rw [← hx] at hv; exact hv
      have hrv := done_fun w h hd hv'
      subst hrv
      exact hrem x j hx.symm (hO _ h3) h5 (by rw [← hN]; exact h6)
    · rcases h2 with h2 | h2
      · exact h.remOuter x j r h1 h2 (hO _ h3) ((hD _ _).1 h4) h5 (by rw [← hN]; exact h6)
      · exact absurd h2 hx
  · rw [f8]; intro f hf k hk; exact Or.inl (h.visDone f hf k hk)
  · rw [f8]; intro f k hk hdn
    rcases hdn with hdn | hdn
    · exact h.dnSub f k hk hdn
    · exact hip f k hdn.symm hk

end Avian.Collect
