import Verif.Conc.ClassInit

/-
The invariant of `Conc/ClassInit`.
-/
namespace Avian.ClassInit

/-- `d` is a superclass of `c`, at any distance. -/
inductive Above (P : Prog) : Nat → Nat → Prop
  | one {c d : Nat} : P.super c = some d → Above P c d
  | more {c e d : Nat} : P.super c = some e → Above P e d → Above P c d

/-- The initializer of `c` is over (or there is none). -/
def Ended (P : Prog) (c : Nat) (log : List Ev) : Prop :=
  P.hasInit c = false ∨ ∃ u k, Ev.finished u c k ∈ log

/-- The initializer of `c` is over, or thread `t` is the one that runs it. -/
def Settled (P : Prog) (t c : Nat) (log : List Ev) : Prop := Ended P c log ∨ Ev.started t c ∈ log

/-- What an event says about those before it. -/
def EvOk (P : Prog) (pre : List Ev) : Ev → Prop
  | .called _ _ => True
  | .started t c => (∀ u, Ev.started u c ∉ pre) ∧ P.hasInit c = true ∧ ∀ d, Above P c d → Settled P t d pre
  | .finished t c _ => Ev.started t c ∈ pre ∧ ∀ u k, Ev.finished u c k ∉ pre
  | .failed c => ∃ t, Ev.finished t c .exc ∈ pre
  | .returned t c id => pre[id]? = some (.called t c) ∧ ∀ d, d = c ∨ Above P c d → Settled P t d pre ∧ Ev.failed d ∉ pre.take id
  | .threw t c id => pre[id]? = some (.called t c) ∧ ∃ d, (d = c ∨ Above P c d) ∧ ∃ u k, k ≠ Kind.ok ∧ Ev.finished u d k ∈ pre

/-- Every event of the log is as it should be. -/
def LogOk (P : Prog) (log : List Ev) : Prop := ∀ i e, log[i]? = some e → EvOk P (log.take i) e

theorem Ended.mono {P : Prog} {c : Nat} {l : List Ev} (h : Ended P c l) (m : List Ev) : Ended P c (l ++ m) := by
  rcases h with h | ⟨u, k, h⟩
  · exact .inl h
  · exact .inr ⟨u, k, List.mem_append_left _ h⟩

theorem Settled.mono {P : Prog} {t c : Nat} {l : List Ev} (h : Settled P t c l) (m : List Ev) :
    Settled P t c (l ++ m) := by
  rcases h with h | h
  · exact .inl (h.mono m)
  · exact .inr (List.mem_append_left _ h)

theorem LogOk.snoc {P : Prog} {log : List Ev} {e : Ev} (h : LogOk P log) (he : EvOk P log e) : LogOk P (log ++ [e]) := by
  intro i x hx
  by_cases hi : i < log.length
  · rw [List.getElem?_append_left hi] at hx
    rw [List.take_append_of_le_length (by omega)]
    exact h i x hx
  · rw [List.getElem?_append_right (by omega)] at hx
    have hi' : i - log.length = 0 := by
      by_cases h0 : i - log.length = 0
      · exact h0
      · rw [List.getElem?_eq_none (by simp; omega)] at hx; exact absurd hx (by simp)
    rw [hi'] at hx
    have hii : i = log.length := by omega
    subst hii
    simp at hx
    subst hx
    simpa using he

/-- The calls that cannot have left before the class was seen. -/
def Pc.early : Pc → Bool
  | .start | .super | .check | .lock | .decide | .fail => true
  | _ => false

/-- The calls that have dealt with the superclass. -/
def Pc.pastSuper : Pc → Bool
  | .start | .super | .fail => false
  | _ => true

def Pc.waiting : Pc → Bool
  | .asleep | .woken | .test => true
  | _ => false

/-- The call that has set `InitFlag`, until it clears it. -/
def Pc.owning : Pc → Bool
  | .run | .body | .post _ | .postLocked _ | .postError => true
  | _ => false

def Pc.locked : Pc → Bool
  | .decide | .test | .postLocked _ | .postError | .postThrow | .postNotify _ | .postRelease _ => true
  | _ => false

/-- The calls that know how the initializer ended. -/
def Pc.outcome : Pc → Option Kind
  | .post k | .postLocked k | .postNotify k | .postRelease k => some k
  | .postError | .postThrow => some .exc
  | _ => none

structure FrameOk (P : Prog) (sh : Shared) (t : Nat) (f : Frame) : Prop where
  born : f.born ≤ sh.log.length
  call : sh.log[f.born]? = some (.called t f.cls)
  early : Ev.failed f.cls ∈ sh.log.take f.born → f.pc.early = true
  supers : f.pc.pastSuper = true → ∀ d, Above P f.cls d → Settled P t d sh.log ∧ Ev.failed d ∉ sh.log.take f.born
  waits : f.pc.waiting = true → sh.init f.cls = true ∨ Ended P f.cls sh.log
  owns : f.pc.owning = true → sh.owner f.cls = some t ∧ sh.need f.cls = true
  fresh : f.pc = .run → (∀ u, Ev.started u f.cls ∉ sh.log) ∧ sh.err f.cls = false
  running : f.pc = .body → Ev.started t f.cls ∈ sh.log ∧ (∀ u k, Ev.finished u f.cls k ∉ sh.log) ∧ sh.err f.cls = false
  over : ∀ k, f.pc.outcome = some k → (P.hasInit f.cls = false ∧ k = .ok) ∨ Ev.finished t f.cls k ∈ sh.log
  marked : f.pc = .postError → sh.err f.cls = true
  bad : f.pc = .fail → ∃ d, Above P f.cls d ∧ ∃ u k, k ≠ Kind.ok ∧ Ev.finished u d k ∈ sh.log

def ownsB (c : Nat) (f : Frame) : Bool := f.cls == c && f.pc.owning

/-- The facts about the shared state alone. -/
structure SharedOk (P : Prog) (sh : Shared) : Prop where
  owner : ∀ c, sh.init c = (sh.owner c).isSome
  done : ∀ c, sh.need c = false → Ended P c sh.log
  failed : ∀ c, Ev.failed c ∈ sh.log → sh.need c = true ∧ sh.err c = true ∧ sh.init c = false
  started : ∀ c u, Ev.started u c ∈ sh.log → sh.init c = true ∨ sh.need c = false ∨ sh.err c = true
  finished : ∀ c u k, Ev.finished u c k ∈ sh.log → ∃ v, Ev.started v c ∈ sh.log
  err : ∀ c, sh.err c = true → ∃ u, Ev.finished u c .exc ∈ sh.log
  log : LogOk P sh.log

/-- Calls below the innermost one are in the call for the superclass or in an initializer. -/
def Shape : List Frame → Prop
  | [] => True
  | f :: rest => f.pc ≠ .super ∧ ∀ g ∈ rest, g.pc = .super ∨ g.pc = .body

/-- A call for the superclass is for the superclass. -/
def Linked (P : Prog) : List Frame → Prop
  | [] => True
  | [_] => True
  | f :: g :: rest => (g.pc = .super → P.super g.cls = some f.cls ∧ g.born ≤ f.born) ∧ Linked P (g :: rest)

structure Inv (P : Prog) (s : St) : Prop where
  shared : SharedOk P s.sh
  frames : ∀ t, ∀ f ∈ s.stack t, FrameOk P s.sh t f
  count : ∀ t c, (s.stack t).countP (ownsB c) = if s.sh.owner c = some t then 1 else 0
  shape : ∀ t, Shape (s.stack t)
  linked : ∀ t, Linked P (s.stack t)
  holder : ∀ t, s.sh.holder = some t ↔ ∃ f rest, s.stack t = f :: rest ∧ f.pc.locked = true

end Avian.ClassInit
