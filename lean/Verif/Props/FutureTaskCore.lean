import Verif.Lib.FutureTask

/-
Invariants of a task: who is where in `run` and `cancel`, and what its outcome is.
-/
namespace Avian.FutureTask

variable {V E : Type}

/-! ## What is claimed about executions -/

/-- A history: latest first. -/
abbrev Hist (V E : Type) := List (Tid × Ev V E)

/-- How often the callable has been called. -/
def starts : Hist V E → Nat
  | [] => 0
  | (_, .callStart) :: tr => starts tr + 1
  | _ :: tr => starts tr

/-- The answers of the callable. -/
def outs : Hist V E → List (Out V E)
  | [] => []
  | (_, .callEnd o) :: tr => o :: outs tr
  | _ :: tr => outs tr

/-! ## The invariant -/

/-- What matters of the place where a thread is. -/
inductive Cls where
  | out
  /-- has won the task, before the call -/
  | before
  /-- in the call -/
  | calling
  /-- after the call -/
  | fin
  /-- found the task cancelled -/
  | look
  /-- leaving `run`: 74-76 -/
  | tail
  /-- between lines 100 and 111 -/
  | cancel
  deriving DecidableEq

def cls : Pc → Cls
  | .rSetThread | .rCall => .before
  | .rCalling => .calling
  | .rFinish => .fin
  | .rLook | .rSleep => .look
  | .rClear | .rNotify | .rUnset => .tail
  | .cRead | .cInterrupt _ | .cSet _ => .cancel
  | _ => .out

/-- The state without what does not matter here. -/
structure Abs (V E : Type) where
  st : St
  c : Tid → Cls
  starts : Nat
  outs : List (Out V E)
  result : Option V
  failure : Option E

def abs (tr : Hist V E) (s : State V E) : Abs V E :=
  { st := s.st, c := fun t => cls (s.pc t), starts := starts tr, outs := outs tr,
    result := s.result, failure := s.failure }

inductive AbsStep (t : Tid) (x : Abs V E) : Abs V E → Prop where
  | quiet : AbsStep t x x
  | win : x.st = .new → x.c t = .out →
      AbsStep t x { x with st := .running, c := set x.c t .before }
  | call : x.c t = .before →
      AbsStep t x { x with c := set x.c t .calling, starts := x.starts + 1 }
  | value (v : Option V) : x.c t = .calling →
      AbsStep t x { x with c := set x.c t .fin, outs := .value v :: x.outs, result := v }
  | thrown (e : E) : x.c t = .calling →
      AbsStep t x { x with c := set x.c t .fin, outs := .thrown e :: x.outs, failure := some e }
  | finish : x.c t = .fin → x.st = .running →
      AbsStep t x { x with st := .done, c := set x.c t .tail }
  | cancelled : x.c t = .fin → x.st ≠ .running → AbsStep t x { x with c := set x.c t .look }
  | leave : x.c t = .look → AbsStep t x { x with c := set x.c t .tail }
  | left : x.c t = .tail → AbsStep t x { x with c := set x.c t .out }
  | cancelNew : x.st = .new → x.c t = .out → AbsStep t x { x with st := .canceled }
  | cancelRunning : x.st = .running → x.c t = .out →
      AbsStep t x { x with st := .canceling, c := set x.c t .cancel }
  | cancelDone : x.c t = .cancel →
      AbsStep t x { x with st := .canceled, c := set x.c t .out }

theorem cls_set (f : Tid → Pc) (t : Tid) (p : Pc) :
    (fun u => cls (set f t p u)) = set (fun u => cls (f u)) t (cls p) := by
  funext u
  unfold set
  split <;> rfl

theorem set_same {α : Type} (f : Tid → α) (t : Tid) (x : α) (h : f t = x) : set f t x = f := by
  funext u
  unfold set
  split
  · rename_i e
    rw [e, h]
  · rfl

theorem cls_awake (p : Pc) : cls (awake p) = cls p := by
  cases p <;> rfl

theorem cls_start (op : Op) : cls (start op) = .out := by
  cases op <;> rfl

theorem abs_quiet {tr tr' : Hist V E} {s s' : State V E} {t : Tid} {p : Pc}
    (h1 : s'.st = s.st) (h2 : s'.pc = set s.pc t p) (h3 : s'.result = s.result)
    (h4 : s'.failure = s.failure) (h5 : starts tr' = starts tr) (h6 : outs tr' = outs tr)
    (h7 : cls p = cls (s.pc t)) : AbsStep t (abs tr s) (abs tr' s') := by
  have : abs tr' s' = abs tr s := by
    unfold abs
    rw [h1, h2, h3, h4, h5, h6, cls_set, h7, set_same _ _ _ rfl]
  rw [this]
  exact .quiet

theorem abs_step {tr : Hist V E} {s s' : State V E} {t : Tid} {a : Act V E} {evs : List (Ev V E)}
    (h : step s t a = some (s', evs)) :
    AbsStep t (abs tr s) (abs (evs.map (fun e => (t, e)) ++ tr) s') := by
  unfold step at h
  repeat' split at h
  all_goals first
    | (simp at h; done)
    | (simp only [Option.some.injEq, Prod.mk.injEq] at h
       obtain ⟨rfl, rfl⟩ := h
       simp only [List.map_cons, List.map_nil, List.cons_append, List.nil_append]
       first
         | (refine abs_quiet (p := start _) rfl rfl rfl rfl rfl rfl ?_
            simp [cls_start, cls, *]; done)
         | (refine abs_quiet rfl rfl rfl rfl rfl rfl ?_
            simp [cls_start, cls, *]; done)
         | skip)
  · exact abs_quiet rfl rfl rfl rfl rfl rfl (by rw [cls_start, ‹s.pc t = .idle›]; rfl)
  · exact .quiet
  · rename_i v
    refine (congrArg (AbsStep t (abs tr s)) ?_).mpr (.value v (by simp [abs, cls, *]))
    simp only [abs, goto, cls_set, starts, outs]
    rfl
  · rename_i e
    refine (congrArg (AbsStep t (abs tr s)) ?_).mpr (.thrown e (by simp [abs, cls, *]))
    simp only [abs, goto, cls_set, starts, outs]
    rfl
  · exact .quiet
  · refine (congrArg (AbsStep t (abs tr s)) ?_).mpr (.win (by simp [abs, *]) (by simp [abs, cls, *]))
    simp only [abs, goto, cls_set, starts, outs]
    rfl
  · refine (congrArg (AbsStep t (abs tr s)) ?_).mpr (.call (by simp [abs, cls, *]))
    simp only [abs, goto, cls_set, starts, outs]
    rfl
  · refine (congrArg (AbsStep t (abs tr s)) ?_).mpr
      (.finish (by simp [abs, cls, *]) (by simp [abs, *]))
    simp only [abs, goto, cls_set, starts, outs]
    rfl
  · refine (congrArg (AbsStep t (abs tr s)) ?_).mpr
      (.cancelled (by simp [abs, cls, *]) (by simp [abs, *]))
    simp only [abs, goto, cls_set, starts, outs]
    rfl
  · refine (congrArg (AbsStep t (abs tr s)) ?_).mpr (.leave (by simp [abs, cls, *]))
    simp only [abs, goto, cls_set, starts, outs]
    rfl
  · refine (congrArg (AbsStep t (abs tr s)) ?_).mpr (.leave (by simp [abs, cls, *]))
    simp only [abs, goto, cls_set, starts, outs]
    rfl
  · refine (congrArg (AbsStep t (abs tr s)) ?_).mpr .quiet
    simp only [abs, goto, cls_set, cls_awake, Abs.mk.injEq, true_and, and_true]
    exact set_same _ _ _ (by rw [‹s.pc t = .rNotify›]; rfl)
  · refine (congrArg (AbsStep t (abs tr s)) ?_).mpr (.left (by simp [abs, cls, *]))
    simp only [abs, goto, cls_set, starts, outs]
    rfl
  · refine (congrArg (AbsStep t (abs tr s)) ?_).mpr
      (.cancelNew (by simp [abs, *]) (by simp [abs, cls, *]))
    simp only [abs, goto, cls_set, Abs.mk.injEq, true_and, and_true]
    exact set_same _ _ _ (by rw [‹s.pc t = .cCas _›]; rfl)
  · refine (congrArg (AbsStep t (abs tr s)) ?_).mpr .quiet
    simp only [abs, goto, cls_set, cls_awake, starts, outs, Abs.mk.injEq, true_and, and_true]
    exact set_same _ _ _ (by rw [‹s.pc t = .cNotify _›]; rfl)
  · refine (congrArg (AbsStep t (abs tr s)) ?_).mpr
      (.cancelRunning (by simp [abs, *]) (by simp [abs, cls, *]))
    simp only [abs, goto, cls_set, starts, outs]
    rfl
  · refine (congrArg (AbsStep t (abs tr s)) ?_).mpr (.cancelDone (by simp [abs, cls, *]))
    simp only [abs, goto, cls_set, starts, outs]
    rfl

def inRun (c : Cls) : Prop := c ≠ .out ∧ c ≠ .cancel

structure Core (x : Abs V E) : Prop where
  new : x.st = .new → (∀ t, x.c t = .out) ∧ x.starts = 0 ∧ x.outs = []
  uniq : ∀ t u, inRun (x.c t) → inRun (x.c u) → t = u
  before : ∀ t, x.c t = .before → x.starts = 0 ∧ x.outs = []
  calling : ∀ t, x.c t = .calling → x.starts = 1 ∧ x.outs = []
  after : ∀ t, x.c t = .fin ∨ x.c t = .look ∨ x.c t = .tail → x.starts = 1 ∧ x.outs.length = 1
  le : (x.starts = 0 ∧ x.outs = []) ∨ (x.starts = 1 ∧ x.outs = []) ∨
    (x.starts = 1 ∧ x.outs.length = 1)
  going : ∀ t, x.c t = .before ∨ x.c t = .calling ∨ x.c t = .fin →
    x.st = .running ∨ x.st = .canceling ∨ x.st = .canceled
  look : ∀ t, x.c t = .look → x.st = .canceling ∨ x.st = .canceled
  done : x.st = .done → x.outs.length = 1
  cancelling : ∀ t, x.c t = .cancel → x.st = .canceling
  cuniq : ∀ t u, x.c t = .cancel → x.c u = .cancel → t = u
  fields : (x.outs = [] → x.result = none ∧ x.failure = none) ∧
    (∀ v, x.outs = [.value v] → x.result = v ∧ x.failure = none) ∧
    (∀ e, x.outs = [.thrown e] → x.failure = some e)

theorem core_init : Core (abs [] (init V E)) := by
  constructor <;> simp [abs, init, starts, outs, inRun, cls]

theorem core_step {t : Tid} {x x' : Abs V E} (hc : Core x) (h : AbsStep t x x') : Core x' := by
  obtain ⟨h1, h2, h3, h4, h5, h6, h7, h8, h9, h10, h11, h12⟩ := hc
  cases h <;> constructor <;> (try simp only []) <;> grind [set, inRun]

theorem core_stable {t : Tid} {x x' : Abs V E} (hc : Core x) (h : AbsStep t x x')
    (hf : x.st = .done ∨ x.st = .canceled) : x'.st = x.st ∧
      (x.st = .done → x'.outs = x.outs ∧ x'.result = x.result ∧ x'.failure = x.failure) := by
  obtain ⟨h1, h2, h3, h4, h5, h6, h7, h8, h9, h10, h11, h12⟩ := hc
  cases h <;> grind

/-- The task was cancelled before it began: the callable is never called. -/
def Never (x : Abs V E) : Prop := x.st = .canceled ∧ x.starts = 0 ∧ ∀ t, ¬ inRun (x.c t)

theorem never_step {t : Tid} {x x' : Abs V E} (hc : Core x) (h : AbsStep t x x') (hn : Never x) :
    Never x' := by
  have h10 := hc.cancelling
  unfold Never at hn ⊢
  cases h <;> grind [inRun, set]

/-- What a thread in the middle of `get` knows. -/
def Seen (s : State V E) : Pc → Prop
  | .gEnter timed over | .gRead1 timed over | .gRead2 timed over => over = true → timed = true
  | .gState timed over =>
    (over = true → timed = true) ∧ (over = false → s.st = .done ∨ s.st = .canceled)
  | .gFailure _ => s.st = .done
  | .gResult _ => s.st = .done ∧ s.failure = none
  | _ => True

/-- What an event says about the present. -/
def EvOk (tr : Hist V E) (s : State V E) : Ev V E → Prop
  | .got _ (.value v) => s.st = .done ∧ outs tr = [.value v]
  | .got _ (.failed e) => s.st = .done ∧ outs tr = [.thrown e]
  | .got _ .cancelled => s.st = .canceled
  | .got timed .timeout => timed = true
  | .isDone true => s.st = .done ∨ s.st = .canceled
  | .isCancelled true => s.st = .canceled
  | .cancel false true => Never (abs tr s)
  | .cancel true true => s.st = .canceled ∧ (Never (abs tr s) ∨ ∃ u r, (u, .interrupts r) ∈ tr)
  | _ => True

/-- Somebody has called `cancel`. -/
def Asked (tr : Hist V E) : Prop := ∃ u m, (u, Ev.call (.cancel m)) ∈ tr

def canceller : Pc → Bool
  | .cCas _ | .cNotify _ | .cCas2 | .cRead | .cInterrupt _ | .cSet _ => true
  | _ => false

structure Inv (tr : Hist V E) (s : State V E) : Prop where
  core : Core (abs tr s)
  seen : ∀ t, Seen s (s.pc t)
  evs : ∀ u e, (u, e) ∈ tr → EvOk tr s e
  asked : s.st = .canceling ∨ s.st = .canceled ∨ (∃ t, canceller (s.pc t) = true) → Asked tr
  won : ∀ t m, s.pc t = .cNotify m → Never (abs tr s)
  sent : ∀ t, s.pc t = .cSet true → ∃ u r, (u, Ev.interrupts r) ∈ tr

theorem inv_init : Inv [] (init V E) := by
  refine ⟨core_init, ?_, ?_, ?_, ?_, ?_⟩ <;> simp [init, Seen, canceller]

theorem pc_step {s s' : State V E} {t : Tid} {a : Act V E} {evs : List (Ev V E)}
    (h : step s t a = some (s', evs)) (u : Tid) (hu : u ≠ t) :
    s'.pc u = s.pc u ∨ s'.pc u = awake (s.pc u) := by
  unfold step at h
  repeat' split at h
  all_goals first
    | (simp at h; done)
    | (simp only [Option.some.injEq, Prod.mk.injEq] at h
       obtain ⟨rfl, rfl⟩ := h
       simp [goto, set, hu])

theorem seen_self {s s' : State V E} {t : Tid} {a : Act V E} {evs : List (Ev V E)}
    (h : step s t a = some (s', evs)) (hs : Seen s (s.pc t)) : Seen s' (s'.pc t) := by
  unfold step at h
  repeat' split at h
  all_goals first
    | (simp at h; done)
    | (simp only [Option.some.injEq, Prod.mk.injEq] at h
       obtain ⟨rfl, rfl⟩ := h
       first
         | (rw [‹s.pc t = _›] at hs
            simp_all [goto, set, Seen]; done)
         | (simp_all [goto, set, Seen]; done)
         | skip)
  · rename_i op _
    cases op <;> simp +contextual [goto, set, start, Seen]
  · rename_i heq hx
    rw [heq] at hs
    simp only [goto, set, Seen, if_pos] at hs ⊢
    refine ⟨hs, fun ho => ?_⟩
    rcases hx with hx | hx
    · exact .inr hx
    · rw [hx] at ho; cases ho


theorem seen_other {s s' : State V E} {p : Pc} (hs : Seen s p)
    (h : s.st = .done ∨ s.st = .canceled → s'.st = s.st ∧ (s.st = .done → s'.failure = s.failure)) :
    Seen s' p ∧ Seen s' (awake p) := by
  cases p <;> simp only [Seen, awake] at hs ⊢ <;> grind

theorem ev_old {tr tr' : Hist V E} {s s' : State V E} {e : Ev V E} (he : EvOk tr s e)
    (h : s.st = .done ∨ s.st = .canceled → s'.st = s.st ∧ (s.st = .done → outs tr' = outs tr))
    (hn : Never (abs tr s) → Never (abs tr' s')) (hsub : ∀ x, x ∈ tr → x ∈ tr') :
    EvOk tr' s' e := by
  unfold EvOk at he ⊢
  split at he <;> try trivial
  · grind
  · grind
  · grind
  · grind
  · grind
  · exact hn he
  · refine ⟨by grind, ?_⟩
    rcases he.2 with h1 | ⟨u, r, h1⟩
    · exact .inl (hn h1)
    · exact .inr ⟨u, r, hsub _ h1⟩

theorem ev_new {tr : Hist V E} {s s' : State V E} {t : Tid} {a : Act V E} {evs : List (Ev V E)}
    (hi : Inv tr s) (h : step s t a = some (s', evs)) (hn : Never (abs tr s) →
      Never (abs (evs.map (fun e => (t, e)) ++ tr) s')) :
    ∀ e, e ∈ evs → EvOk (evs.map (fun e => (t, e)) ++ tr) s' e := by
  have hs := hi.seen t
  have hw := hi.won t
  have hsent := hi.sent t
  unfold step at h
  repeat' split at h
  all_goals first
    | (simp at h; done)
    | (simp only [Option.some.injEq, Prod.mk.injEq] at h
       obtain ⟨rfl, rfl⟩ := h
       first
         | (simp [EvOk]; done)
         | (rw [‹s.pc t = _›] at hs
            simp_all [goto, set, Seen, EvOk]; done)
         | skip)
  · rename_i m heq _
    intro e he
    rw [List.mem_singleton] at he
    subst he
    have hn' := hn (hw m heq)
    cases m
    · exact hn'
    · exact ⟨hn'.1, .inl hn'⟩
  · rename_i b heq
    intro e he
    rw [List.mem_singleton] at he
    subst he
    cases b
    · trivial
    · obtain ⟨u, r, h1⟩ := hsent heq
      exact ⟨rfl, .inr ⟨u, r, List.mem_cons_of_mem _ h1⟩⟩
  · rename_i heq' x e0 hf
    intro e he
    rw [List.mem_singleton] at he
    subst he
    rw [heq'] at hs
    have hd := hi.core.done hs
    have hfl := hi.core.fields
    simp only [abs] at hd hfl
    refine ⟨hs, ?_⟩
    simp only [List.map_cons, List.map_nil, List.cons_append, List.nil_append, outs]
    match ho : outs tr, hd with
    | [.value v], _ => exact absurd (hfl.2.1 v ho).2 (by rw [hf]; simp)
    | [.thrown e'], _ =>
      have := hfl.2.2 e' ho
      rw [hf] at this
      cases this
      rfl
  · rename_i heq'
    intro e he
    rw [List.mem_singleton] at he
    subst he
    rw [heq'] at hs
    have hd := hi.core.done hs.1
    have hfl := hi.core.fields
    simp only [abs] at hd hfl
    refine ⟨hs.1, ?_⟩
    simp only [List.map_cons, List.map_nil, List.cons_append, List.nil_append, outs]
    match ho : outs tr, hd with
    | [.value v], _ => rw [(hfl.2.1 v ho).1]
    | [.thrown e'], _ => exact absurd (hfl.2.2 e' ho) (by rw [hs.2]; simp)
  · intro e he
    rw [List.mem_singleton] at he
    subst he
    by_cases hc : s.st = .canceled
    · rw [decide_eq_true hc]
      exact .inr hc
    · rw [decide_eq_false hc]
      trivial
  · intro e he
    rw [List.mem_singleton] at he
    subst he
    by_cases hc : s.st = .canceled
    · rw [decide_eq_true hc]
      exact hc
    · rw [decide_eq_false hc]
      trivial

end Avian.FutureTask
