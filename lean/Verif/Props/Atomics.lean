import Verif.Lib.Atomics

/-
C111: atomic numbers.
-/
namespace Avian.Atomics

variable {w : Nat}

/-! ## Specification: one operation after the other -/

/-- An operation on a number. -/
def apply (v : BitVec w) : Op w → BitVec w × Res w
  | .get => (v, .value v)
  | .set u => (u, .unit)
  | .cas e u => if v = e then (u, .bool true) else (v, .bool false)
  | .getAndSet u => (u, .value v)
  | .getAndAdd d => (v + d, .value v)
  | .addAndGet d => (v + d, .value (v + d))

/-- Operations with these results, one after the other, lead from one value to the other. -/
inductive Sequential : BitVec w → List (Op w × Res w) → BitVec w → Prop where
  | nil (v : BitVec w) : Sequential v [] v
  | cons (v u : BitVec w) (op : Op w) (l : List (Op w × Res w)) : Sequential (apply v op).1 l u → Sequential v ((op, (apply v op).2) :: l) u

def Event.thread : Event w → Nat
  | .call t _ | .effect t _ _ | .ret t _ => t

/-- The effects, in their order. -/
def effects : List (Event w) → List (Op w × Res w)
  | [] => []
  | .effect _ op r :: es => (op, r) :: effects es
  | _ :: es => effects es

/-- Calls and returns of a thread. -/
inductive Phase (w : Nat) where
  | out
  | inside (op : Op w)
  | after (r : Res w)
  deriving DecidableEq

def follow : Phase w → Event w → Option (Phase w)
  | .out, .call _ op => some (.inside op)
  | .inside op, .effect _ op' r => if op = op' then some (.after r) else none
  | .after r, .ret _ r' => if r = r' then some .out else none
  | _, _ => none

/-- Each operation of the thread `t` is called, has its effect once, and returns the result of the effect. -/
def followAll (t : Nat) : Phase w → List (Event w) → Option (Phase w)
  | p, [] => some p
  | p, e :: es => if e.thread = t then (follow p e).bind fun p => followAll t p es else followAll t p es

/-! ## Linearizability -/

theorem effects_append (a b : List (Event w)) : effects (a ++ b) = effects a ++ effects b := by
  induction a with
  | nil => rfl
  | cons e a ih => cases e <;> simp [effects, ih]

theorem followAll_append (t : Nat) (p : Phase w) (a b : List (Event w)) : followAll t p (a ++ b) = (followAll t p a).bind fun q => followAll t q b := by
  induction a generalizing p with
  | nil => rfl
  | cons e a ih =>
    rw [List.cons_append, followAll, followAll]
    split
    · cases follow p e with
      | none => rfl
      | some q => simp [ih]
    · exact ih p

theorem sequential_append (v u x : BitVec w) (a b : List (Op w × Res w)) (ha : Sequential v a u) (hb : Sequential u b x) : Sequential v (a ++ b) x := by
  induction ha with
  | nil v => exact hb
  | cons v u op l _ ih => exact .cons v x op (l ++ b) (ih hb)

/-- Only the operations with a loop read before they write. -/
def Loop : Op w → Prop
  | .getAndSet _ | .getAndAdd _ | .addAndGet _ => True
  | _ => False

def Fine (s : State w) : Prop := ∀ t op cur, s.pc t = .loaded op cur → Loop op

def phaseOf : Pc w → Phase w
  | .idle => .out
  | .called op => .inside op
  | .loaded op _ => .inside op
  | .done r => .after r

theorem at_pc (s : State w) (t u : Nat) (p : Pc w) : (s.at t p).pc u = if u = t then p else s.pc u := rfl

theorem round_apply (op : Op w) (h : Loop op) (cur : BitVec w) : round op cur = apply cur op := by
  cases op <;> first | rfl | exact absurd h id

theorem follow_at (s : State w) (t u : Nat) (v : BitVec w) (p : Pc w) (e : Event w) (he : e.thread = t) (h : follow (phaseOf (s.pc t)) e = some (phaseOf p)) :
    followAll u (phaseOf (s.pc u)) [e] = some (phaseOf (({ s.at t p with value := v } : State w).pc u)) := by
  rw [followAll, he, show ({ s.at t p with value := v } : State w).pc u = if u = t then p else s.pc u from rfl]
  by_cases hu : t = u
  · subst hu
    rw [if_pos rfl, if_pos rfl, h]
    rfl
  · rw [if_neg hu, if_neg (fun h => hu h.symm)]
    rfl

theorem stay_at (s : State w) (t u : Nat) (v : BitVec w) (p : Pc w) (h : phaseOf (s.pc t) = phaseOf p) :
    followAll u (phaseOf (s.pc u)) [] = some (phaseOf (({ s.at t p with value := v } : State w).pc u)) := by
  rw [followAll, show ({ s.at t p with value := v } : State w).pc u = if u = t then p else s.pc u from rfl]
  by_cases hu : u = t
  · subst hu; rw [if_pos rfl, h]
  · rw [if_neg hu]

theorem fine_at (s : State w) (hf : Fine s) (t : Nat) (v : BitVec w) (p : Pc w) (hp : ∀ op cur, p = .loaded op cur → Loop op) :
    Fine ({ s.at t p with value := v } : State w) := by
  intro u op cur h
  rw [show ({ s.at t p with value := v } : State w).pc u = if u = t then p else s.pc u from rfl] at h
  by_cases hu : u = t
  · rw [if_pos hu] at h; exact hp op cur h
  · rw [if_neg hu] at h; exact hf u op cur h

structure StepOk (s : State w) (r : State w × List (Event w)) : Prop where
  seq : Sequential s.value (effects r.2) r.1.value
  phases : ∀ t, followAll t (phaseOf (s.pc t)) r.2 = some (phaseOf (r.1.pc t))
  fine : Fine r.1

theorem step_ok (s : State w) (hf : Fine s) (a : Action w) : StepOk s (step s a) := by
  cases a with
  | call t op =>
    unfold step
    by_cases h : s.pc t = .idle
    · simp only [h, if_true]
      exact ⟨.nil _, fun u => follow_at s t u s.value _ _ rfl (by rw [h]; rfl), fine_at s hf t s.value _ (fun _ _ h => by cases h)⟩
    · simp only [h, if_false]
      exact ⟨.nil _, fun u => rfl, hf⟩
  | ret t =>
    unfold step
    simp only
    split
    · rename_i r h
      exact ⟨.nil _, fun u => follow_at s t u s.value _ _ rfl (by rw [h]; simp [phaseOf, follow]), fine_at s hf t s.value _ (fun _ _ h => by cases h)⟩
    · exact ⟨.nil _, fun u => rfl, hf⟩
  | run t =>
    unfold step
    simp only
    split
    · rename_i h
      exact ⟨.cons _ _ .get [] (.nil _), fun u => follow_at s t u s.value _ _ rfl (by rw [h]; simp [phaseOf, follow]), fine_at s hf t s.value _ (fun _ _ h => by cases h)⟩
    · rename_i v h
      exact ⟨.cons _ _ (.set v) [] (.nil _), fun u => follow_at s t u v _ _ rfl (by rw [h]; simp [phaseOf, follow]), fine_at s hf t v _ (fun _ _ h => by cases h)⟩
    · rename_i e x h
      by_cases hv : s.value = e
      · rw [if_pos hv]
        refine ⟨?_, fun u => follow_at s t u x _ _ rfl (by rw [h]; simp [phaseOf, follow]), fine_at s hf t x _ (fun _ _ h => by cases h)⟩
        have := Sequential.cons s.value x (.cas e x) []
        rw [show apply s.value (.cas e x) = (x, .bool true) by rw [apply, if_pos hv]] at this
        exact this (.nil _)
      · rw [if_neg hv]
        refine ⟨?_, fun u => follow_at s t u s.value _ _ rfl (by rw [h]; simp [phaseOf, follow]), fine_at s hf t s.value _ (fun _ _ h => by cases h)⟩
        have := Sequential.cons s.value s.value (.cas e x) []
        rw [show apply s.value (.cas e x) = (s.value, .bool false) by rw [apply, if_neg hv]] at this
        exact this (.nil _)
    · rename_i op n1 n2 n3 h
      refine ⟨.nil _, fun u => stay_at s t u s.value _ (by rw [h]; rfl), fine_at s hf t s.value _ ?_⟩
      intro op' cur he
      cases he
      cases op with
      | get => exact absurd rfl n1
      | set v => exact absurd rfl (n2 v)
      | cas e x => exact absurd rfl (n3 e x)
      | _ => trivial
    · rename_i op cur h
      have hl := hf t op cur h
      rw [round_apply op hl]
      by_cases hv : s.value = cur
      · rw [if_pos hv]
        subst hv
        exact ⟨.cons _ _ op [] (.nil _), fun u => follow_at s t u _ _ _ rfl (by rw [h]; simp [phaseOf, follow]), fine_at s hf t _ _ (fun _ _ h => by cases h)⟩
      · rw [if_neg hv]
        exact ⟨.nil _, fun u => stay_at s t u s.value _ (by rw [h]; rfl), fine_at s hf t s.value _ (fun _ _ h => by cases h)⟩
    · exact ⟨.nil _, fun u => rfl, hf⟩

theorem exec_ok (as : List (Action w)) (s : State w) (hf : Fine s) : StepOk s (exec s as) := by
  induction as generalizing s with
  | nil => exact ⟨.nil _, fun _ => rfl, hf⟩
  | cons a as ih =>
    have h1 := step_ok s hf a
    have h2 := ih (step s a).1 h1.fine
    refine ⟨?_, fun t => ?_, h2.fine⟩
    · rw [exec, effects_append]
      exact sequential_append _ _ _ _ _ h1.seq h2.seq
    · rw [exec, followAll_append, h1.phases t]
      exact h2.phases t

theorem initial_fine (v : BitVec w) : Fine (initial v) := by
  intro t op cur h
  cases h

/-- Atomic numbers are linearizable: in every execution of any number of threads, each operation has its effect once, between its
call and its return, and returns the result of that effect; and the effects are those of the operations one after the other. -/
theorem linearizable (v : BitVec w) (as : List (Action w)) :
    Sequential v (effects (exec (initial v) as).2) (exec (initial v) as).1.value ∧
    ∀ t, ∃ p, followAll t .out (exec (initial v) as).2 = some p :=
  ⟨(exec_ok as (initial v) (initial_fine v)).seq, fun t => ⟨_, (exec_ok as (initial v) (initial_fine v)).phases t⟩⟩

/-! ## Nothing is lost -/

/-- The calls of `op` by `t`. -/
def calls (t : Nat) (op : Op w) : List (Event w) → Nat
  | [] => 0
  | .call t' op' :: es => (if t' = t ∧ op' = op then 1 else 0) + calls t op es
  | _ :: es => calls t op es

/-- The effects of `op` by `t`. -/
def done (t : Nat) (op : Op w) : List (Event w) → Nat
  | [] => 0
  | .effect t' op' _ :: es => (if t' = t ∧ op' = op then 1 else 0) + done t op es
  | _ :: es => done t op es

def inside (op : Op w) (p : Phase w) : Nat := if p = .inside op then 1 else 0

theorem counts (t : Nat) (op : Op w) (es : List (Event w)) (p q : Phase w) (h : followAll t p es = some q) :
    calls t op es + inside op p = done t op es + inside op q := by
  induction es generalizing p with
  | nil =>
    cases h
    rfl
  | cons e es ih =>
    rw [followAll] at h
    by_cases ht : e.thread = t
    · rw [if_pos ht] at h
      cases hq : follow p e with
      | none => rw [hq] at h; cases h
      | some p' =>
        rw [hq, Option.bind_some] at h
        have := ih p' h
        unfold inside at *
        cases e with
        | call t' op' =>
          cases p with
          | out =>
            simp only [follow, Option.some.injEq] at hq
            subst hq
            simp only [Event.thread] at ht
            subst ht
            simp only [calls, done, true_and, Phase.inside.injEq, reduceCtorEq, if_false] at *
            omega
          | _ => simp [follow] at hq
        | effect t' op' r =>
          cases p with
          | inside op'' =>
            simp only [follow] at hq
            split at hq
            · rename_i he
              cases hq
              subst he
              simp only [Event.thread] at ht
              subst ht
              simp only [calls, done, true_and, Phase.inside.injEq, reduceCtorEq, if_false] at *
              omega
            · cases hq
          | _ => simp [follow] at hq
        | ret t' r =>
          cases p with
          | after r' =>
            simp only [follow] at hq
            split at hq
            · cases hq
              simp only [calls, done, reduceCtorEq, if_false] at *
              omega
            · cases hq
          | _ => simp [follow] at hq
    · rw [if_neg ht] at h
      have := ih p h
      cases e with
      | call t' op' =>
        simp only [Event.thread] at ht
        simp only [calls, done, ht, false_and, if_false]
        omega
      | effect t' op' r =>
        simp only [Event.thread] at ht
        simp only [calls, done, ht, false_and, if_false]
        omega
      | ret t' r => simpa only [calls, done] using this

/-- When a thread is outside, each of its calls had its effect. -/
theorem none_lost (v : BitVec w) (as : List (Action w)) (t : Nat) (h : (exec (initial v) as).1.pc t = .idle) (op : Op w) :
    done t op (exec (initial v) as).2 = calls t op (exec (initial v) as).2 := by
  have h1 := (exec_ok as (initial v) (initial_fine v)).phases t
  rw [h] at h1
  have := counts t op _ _ _ h1
  rw [show inside op (phaseOf ((initial v).pc t)) = 0 from rfl, show inside op (phaseOf (.idle : Pc w)) = 0 from rfl] at this
  omega

theorem effects_done (es : List (Event w)) (x : Op w × Res w) (hx : x ∈ effects es) : ∃ t, 0 < done t x.1 es := by
  induction es with
  | nil => cases hx
  | cons e es ih =>
    cases e with
    | call t op => exact ih hx
    | ret t r => exact ih hx
    | effect t op r =>
      rw [effects, List.mem_cons] at hx
      rcases hx with hx | hx
      · subst hx
        exact ⟨t, by simp only [done, and_self, if_true]; omega⟩
      · obtain ⟨u, hu⟩ := ih hx
        exact ⟨u, by simp only [done]; omega⟩

theorem calls_mem (t : Nat) (op : Op w) (es : List (Event w)) (h : 0 < calls t op es) : Event.call t op ∈ es := by
  induction es with
  | nil => cases h
  | cons e es ih =>
    cases e with
    | ret t r => exact List.mem_cons_of_mem _ (ih h)
    | effect t op r => exact List.mem_cons_of_mem _ (ih h)
    | call t' op' =>
      rw [calls] at h
      by_cases he : t' = t ∧ op' = op
      · rw [he.1, he.2]; exact List.mem_cons_self ..
      · rw [if_neg he, Nat.zero_add] at h
        exact List.mem_cons_of_mem _ (ih h)

theorem step_called (s : State w) (a : Action w) (t : Nat) (op : Op w) (h : Event.call t op ∈ (step s a).2) : a = .call t op := by
  cases a with
  | call u op' =>
    unfold step at h
    simp only at h
    split at h
    · simp only [List.mem_singleton, Event.call.injEq] at h
      rw [h.1, h.2]
    · cases h
  | ret u =>
    unfold step at h
    simp only at h
    split at h <;> simp at h
  | run u =>
    unfold step at h
    simp only at h
    repeat' split at h
    all_goals simp at h

theorem exec_called (as : List (Action w)) (s : State w) (t : Nat) (op : Op w) (h : Event.call t op ∈ (exec s as).2) : .call t op ∈ as := by
  induction as generalizing s with
  | nil => cases h
  | cons a as ih =>
    rw [exec, List.mem_append] at h
    rcases h with h | h
    · rw [step_called s a t op h]; exact List.mem_cons_self ..
    · exact List.mem_cons_of_mem _ (ih _ h)

/-- Only what was called has an effect. -/
theorem effect_called (v : BitVec w) (as : List (Action w)) (x : Op w × Res w) (hx : x ∈ effects (exec (initial v) as).2) :
    ∃ t, .call t x.1 ∈ as := by
  obtain ⟨t, ht⟩ := effects_done _ x hx
  have := counts t x.1 _ _ _ ((exec_ok as (initial v) (initial_fine v)).phases t)
  rw [show inside x.1 (phaseOf ((initial v).pc t)) = 0 from rfl] at this
  exact ⟨t, exec_called as _ t x.1 (calls_mem t x.1 _ (by rw [Nat.add_zero] at this; rw [this]; omega))⟩

/-! ## Counters -/

/-- What an operation that only adds adds. -/
def delta : Op w → BitVec w
  | .getAndAdd d | .addAndGet d => d
  | _ => 0

def Adds : Op w → Prop
  | .getAndAdd _ | .addAndGet _ | .get => True
  | _ => False

def total : List (Op w × Res w) → BitVec w
  | [] => 0
  | x :: l => delta x.1 + total l

theorem sequential_total (v u : BitVec w) (l : List (Op w × Res w)) (h : Sequential v l u) (ha : ∀ x ∈ l, Adds x.1) : u = v + total l := by
  induction h with
  | nil v => simp [total]
  | cons v u op l _ ih =>
    rw [ih (fun x hx => ha x (List.mem_cons_of_mem _ hx)), total, ← BitVec.add_assoc]
    congr 1
    have := ha _ (List.mem_cons_self ..)
    cases op <;> first | rfl | exact absurd this id | simp [apply, delta]

/-- If threads only add (and read), the value is the first one and all that was added. -/
theorem counter (v : BitVec w) (as : List (Action w)) (ha : ∀ t op, .call t op ∈ as → Adds op) :
    (exec (initial v) as).1.value = v + total (effects (exec (initial v) as).2) :=
  sequential_total _ _ _ (linearizable v as).1 fun x hx => by
    obtain ⟨t, ht⟩ := effect_called v as x hx
    exact ha t x.1 ht

theorem tickets_of (v u : BitVec w) (l : List (Op w × Res w)) (h : Sequential v l u) (ha : ∀ x ∈ l, x.1 = getAndIncrement) (i : Nat) (hi : i < l.length) :
    (l[i]?).map (·.2) = some (.value (v + BitVec.ofNat w i)) := by
  induction h generalizing i with
  | nil v => simp at hi
  | cons v u op l _ ih =>
    have ho : op = getAndIncrement := ha _ (List.mem_cons_self ..)
    subst ho
    cases i with
    | zero => simp [apply, getAndIncrement]
    | succ i =>
      rw [List.getElem?_cons_succ, ih (fun x hx => ha x (List.mem_cons_of_mem _ hx)) i (by simpa using hi)]
      congr 2
      simp only [apply, getAndIncrement]
      rw [BitVec.add_assoc]
      congr 1
      apply BitVec.eq_of_toNat_eq
      rw [BitVec.toNat_add, BitVec.toNat_ofNat, BitVec.toNat_ofNat, show (1 : BitVec w) = BitVec.ofNat w 1 from rfl, BitVec.toNat_ofNat, ← Nat.add_mod, Nat.add_comm]

/-- If threads only call `getAndIncrement`, the results are the numbers from the first one on. -/
theorem tickets (v : BitVec w) (as : List (Action w)) (ha : ∀ t op, .call t op ∈ as → op = getAndIncrement)
    (i : Nat) (hi : i < (effects (exec (initial v) as).2).length) :
    ((effects (exec (initial v) as).2)[i]?).map (·.2) = some (.value (v + BitVec.ofNat w i)) :=
  tickets_of v _ _ (linearizable v as).1 (fun x hx => by
    obtain ⟨t, ht⟩ := effect_called v as x hx
    exact ha t x.1 ht) i hi

/-- No two of them are the same, unless there are more than the type has numbers. -/
theorem tickets_distinct (v : BitVec w) (as : List (Action w)) (ha : ∀ t op, .call t op ∈ as → op = getAndIncrement)
    (hn : (effects (exec (initial v) as).2).length ≤ 2 ^ w) (i j : Nat) (hij : i < j) (hj : j < (effects (exec (initial v) as).2).length) :
    ((effects (exec (initial v) as).2)[i]?).map (·.2) ≠ ((effects (exec (initial v) as).2)[j]?).map (·.2) := by
  rw [tickets v as ha i (by omega), tickets v as ha j hj]
  intro h
  simp only [Option.some.injEq, Res.value.injEq] at h
  have h' := congrArg BitVec.toNat (BitVec.add_right_inj v |>.mp h)
  rw [BitVec.toNat_ofNat, BitVec.toNat_ofNat, Nat.mod_eq_of_lt (by omega), Nat.mod_eq_of_lt (by omega)] at h'
  omega

/-- What the operations that count do. -/
theorem counting (v : BitVec w) :
    apply v getAndIncrement = (v + 1, .value v) ∧ apply v incrementAndGet = (v + 1, .value (v + 1)) ∧
    apply v getAndDecrement = (v - 1, .value v) ∧ apply v decrementAndGet = (v - 1, .value (v - 1)) := by
  refine ⟨rfl, rfl, ?_, ?_⟩ <;> simp only [apply, getAndDecrement, decrementAndGet, BitVec.sub_eq_add_neg]

/-! ## Progress -/

def Action.thread : Action w → Nat
  | .call t _ | .run t | .ret t => t

theorem step_other (s : State w) (a : Action w) (t : Nat) (h : a.thread ≠ t) : (step s a).1.pc t = s.pc t := by
  have hat : ∀ (u : Nat) (p : Pc w) (x : BitVec w), u ≠ t → ({ s.at u p with value := x } : State w).pc t = s.pc t := by
    intro u p x hu
    exact if_neg (fun h => hu h.symm)
  cases a with
  | call u op =>
    unfold step
    simp only
    split
    · exact hat u _ s.value h
    · rfl
  | ret u =>
    unfold step
    simp only
    split
    · exact hat u _ s.value h
    · rfl
  | run u =>
    unfold step
    simp only
    repeat' split
    all_goals first | rfl | exact hat u _ _ h | exact hat u _ s.value h

theorem quiet (as : List (Action w)) (s : State w) (hf : Fine s) (h : effects (exec s as).2 = []) : (exec s as).1.value = s.value := by
  have := (exec_ok as s hf).seq
  rw [h] at this
  generalize (exec s as).1.value = u at *
  generalize s.value = v at *
  cases this
  rfl

theorem exec_other (as : List (Action w)) (s : State w) (t : Nat) (h : ∀ a ∈ as, a.thread ≠ t) : (exec s as).1.pc t = s.pc t := by
  induction as generalizing s with
  | nil => rfl
  | cons a as ih => rw [exec, ih _ (fun x hx => h x (List.mem_cons_of_mem _ hx)), step_other s a t (h a (List.mem_cons_self ..))]

theorem progress_of (s : State w) (hf : Fine s) (t : Nat) (op : Op w) (h : s.pc t = .loaded op s.value) (as : List (Action w))
    (ho : ∀ a ∈ as, a.thread ≠ t) (hq : effects (exec s as).2 = []) :
    ∃ r, (step (exec s as).1 (.run t)).2 = [.effect t op r] := by
  have h1 := exec_other as s t ho
  rw [h] at h1
  have h2 := quiet as s hf hq
  refine ⟨(round op s.value).2, ?_⟩
  unfold step
  simp only [h1, h2, if_true]

/-- A round of a loop fails only if another operation had its effect meanwhile: after the first step of a round, if other threads
do anything but no operation of theirs has its effect, the next step of the thread is the effect of its operation. -/
theorem progress (v : BitVec w) (before : List (Action w)) (t : Nat) (op : Op w) (h : (exec (initial v) before).1.pc t = .called op) (as : List (Action w))
    (ho : ∀ a ∈ as, a.thread ≠ t) :
    let s := step (exec (initial v) before).1 (.run t)
    effects (exec s.1 as).2 = [] →
    (∃ r, s.2 = [.effect t op r]) ∨ ∃ r, (step (exec s.1 as).1 (.run t)).2 = [.effect t op r] := by
  intro s hq
  have hf := (exec_ok before (initial v) (initial_fine v)).fine
  have hs := (step_ok _ hf (.run t)).fine
  by_cases hl : Loop op
  · refine .inr (progress_of s.1 hs t op ?_ as ho hq)
    show (step _ (.run t)).1.pc t = .loaded op (step _ (.run t)).1.value
    unfold step
    simp only [h]
    cases op <;> first | exact absurd hl id | exact if_pos rfl
  · refine .inl ?_
    show ∃ r, (step _ (.run t)).2 = _
    unfold step
    simp only [h]
    cases op with
    | get => exact ⟨_, rfl⟩
    | set v => exact ⟨_, rfl⟩
    | cas e u =>
      simp only
      by_cases hv : (exec (initial v) before).1.value = e
      · exact ⟨_, by rw [if_pos hv]⟩
      · exact ⟨_, by rw [if_neg hv]⟩
    | _ => exact absurd trivial hl

/-! ## Examples -/

/-- Two threads increment; the second one interferes with the first, which tries again. -/
example : let r := exec (initial 5#32) [.call 0 getAndIncrement, .run 0, .call 1 incrementAndGet, .run 1, .run 1, .run 0, .run 0, .run 0, .ret 0, .ret 1]
    r.1.value = 7#32 ∧ r.2 = [.call 0 getAndIncrement, .call 1 incrementAndGet, .effect 1 incrementAndGet (.value 6#32),
      .effect 0 getAndIncrement (.value 6#32), .ret 0 (.value 6#32), .ret 1 (.value 6#32)] := by decide +kernel

/-- Three threads draw tickets. -/
example : (effects (exec (initial 7#64) [.call 0 getAndIncrement, .call 1 getAndIncrement, .call 2 getAndIncrement, .run 0, .run 1, .run 2, .run 2, .run 1, .run 0,
    .run 1, .run 1, .run 0, .run 0]).2).map (·.2) = [.value 7#64, .value 8#64, .value 9#64] := by decide +kernel

/-- A round that fails, and the operation that made it fail. -/
example : let s := step (exec (initial 7#64) [.call 0 (.getAndSet 1#64)]).1 (.run 0)
    (step (exec s.1 [.call 1 (.set 9#64), .run 1]).1 (.run 0)).2 = [] ∧ (step (exec s.1 [.call 1 (.set 9#64)]).1 (.run 0)).2 = [.effect 0 (.getAndSet 1#64) (.value 7#64)] := by
  decide +kernel

example : total [((getAndIncrement : Op 32), Res.value 5#32), (decrementAndGet, .value 5#32)] = 0#32 := by decide +kernel

end Avian.Atomics
