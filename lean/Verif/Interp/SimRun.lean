import Verif.Interp.SimStep
/-
One turn of the interpreter's loop simulates one step of the specification; whole executions.
-/
namespace Avian.Interp

open Spec

/-! ### Decoding -/

theorem decode_some {c : List (BitVec 8)} {pc len : Nat} {i : Instr}
    (h : decode c pc = some (i, len)) :
    ∃ n, u1 c pc = some n ∧ pc + len ≤ c.length ∧
      ((simple n = some i ∧ len = 1) ∨ withOperands c pc n = some (i, len)) := by
  unfold decode at h
  obtain ⟨n, hn, h⟩ := bind_some h
  refine ⟨n, hn, ?_⟩
  simp only at h
  split at h
  · rename_i i' hi
    obtain ⟨r, hr, h⟩ := bind_some h
    cases hr
    split at h
    · rename_i hle
      cases h
      exact ⟨hle, Or.inl ⟨hi, rfl⟩⟩
    · exact absurd h (by simp)
  · obtain ⟨r, hr, h⟩ := bind_some h
    split at h
    · rename_i hle
      cases h
      exact ⟨hle, Or.inr hr⟩
    · exact absurd h (by simp)

theorem switchPos_gt (pc : Nat) : pc < switchPos pc := by unfold switchPos; omega

theorem withOperands_pos {c : List (BitVec 8)} {pc n len : Nat} {i : Instr}
    (h : withOperands c pc n = some (i, len)) : 0 < len := by
  have hsp := switchPos_gt pc
  unfold withOperands at h
  split at h
  all_goals try (obtain ⟨x, hx, h⟩ := bind_some h; cases h; decide)
  all_goals try (obtain ⟨x, hx, h⟩ := bind_some h; obtain ⟨y, hy, h⟩ := bind_some h; cases h; decide)
  · simp only at h
    obtain ⟨d, hd, h⟩ := bind_some h
    obtain ⟨lo, hlo, h⟩ := bind_some h
    obtain ⟨hi, hhi, h⟩ := bind_some h
    split at h
    · obtain ⟨ts, hts, h⟩ := bind_some h
      cases h
      omega
    · exact absurd h (by simp)
  · simp only at h
    obtain ⟨d, hd, h⟩ := bind_some h
    obtain ⟨n, hn, h⟩ := bind_some h
    split at h
    · obtain ⟨ps, hps, h⟩ := bind_some h
      split at h
      · cases h
        omega
      · exact absurd h (by simp)
    · exact absurd h (by simp)
  · obtain ⟨op, hop, h⟩ := bind_some h
    split at h
    all_goals try (obtain ⟨x, hx, h⟩ := bind_some h; cases h; decide)
    all_goals try (obtain ⟨x, hx, h⟩ := bind_some h; obtain ⟨y, hy, h⟩ := bind_some h; cases h; decide)
    exact absurd h (by simp)
  · exact absurd h (by simp)

theorem decode_pos {c : List (BitVec 8)} {pc len : Nat} {i : Instr}
    (h : decode c pc = some (i, len)) : 0 < len := by
  obtain ⟨n, _, _, h | h⟩ := decode_some h
  · omega
  · exact withOperands_pos h

/-! ### One instruction -/

/-- The instructions without operands. -/
def isSimple : Instr → Bool
  | .op _ | .load _ _ | .store _ _ | .aload _ | .astore _ | .return _ | .arraylength | .athrow
  | .monitorenter | .monitorexit => true
  | _ => false

theorem simple_is {n : Nat} {i : Instr} (h : simple n = some i) : isSimple i = true := by
  unfold simple at h
  split at h
  all_goals first
    | (have h' := Option.some.inj h
       subst h'
       rfl)
    | exact absurd h (by simp)

section
variable {env : Env} {pl : Place} {mem1 : Nat → Slot} {f : Frame} {rest : List Frame} {b : Nat}
  {nx : BitVec 32} {heap : Heap} {log : List Ev} {len : Nat} {s : St}

theorem simple_sim {i : Instr} {n : Nat}
    (hbody : ∀ m, (env.meth m).code.body.length < 2 ^ 31) (hp : pl.ok)
    (inv : Inv env pl mem1 f rest b nx)
    (ht : At env mem1 f b nx heap log (f.pc + 1) s)
    (hlen : len = 1) (hlb : f.pc + len ≤ (env.meth f.m).code.body.length)
    (hld : ¬ lockDeparts env f)
    (hop : ∀ o, i = .op o → ¬ o.departs f.stack)
    (has : i = .astore .ref → ∀ v j a st x arr, f.stack = v :: .int j :: .obj a :: st →
      heap a = some x → x.arr = some arr → 0 ≤ j.toInt → j.toInt < arr.length →
      storeAllowed env heap x.cls [v] = true)
    (h : simple n = some i) :
    InstrSim env pl mem1 f rest b nx heap log len (isInvoke i)
      (exec env f rest heap log len i) (dispatch env pl.base n) s := by
  rw [simple_dispatch h]
  subst hlen
  cases i with
  | op o => exact sim_op inv ht rfl (by omega) hlb (hop o rfl)
  | load k n => exact sim_load inv ht rfl
  | store k n => exact sim_store inv ht rfl
  | aload k => exact sim_aload inv ht rfl hlb
  | astore k =>
    refine sim_astore inv ht rfl hlb ?_
    intro j a st' x arr e1 e2 e3 e4 e5 e6
    by_cases hk : k = .ref
    · subst hk
      cases hst : f.stack with
      | nil => rw [hst] at e1; exact absurd e1 (by simp [EKind.slots])
      | cons v st =>
        rw [hst] at e1
        have e1' : st = .int j :: .obj a :: st' := e1
        subst e1'
        exact has rfl v j a st' x arr hst e2 e3 e4 e5
    · revert e6
      generalize f.stack.take k.slots = l
      intro e6
      unfold storeAllowed
      split
      · rename_i v
        cases k <;> first | exact absurd rfl hk | exact absurd e6 Bool.false_ne_true
      · rfl
  | «return» k => exact sim_return hbody hp inv ht hld
  | arraylength => exact sim_arraylength inv ht rfl hlb
  | athrow => exact sim_athrow inv ht rfl hlb
  | monitorenter => exact sim_monitorenter inv ht rfl hlb
  | monitorexit => exact sim_monitorexit inv ht rfl hlb
  | _ =>
    exact absurd (simple_is h) Bool.false_ne_true

end

/-! ### One turn of the loop -/

/-- An invoke here may fail with a stack overflow error, and then what happens is defined. -/
def overflowDefined (env : Env) (s : SS) : Prop :=
  match s.frames with
  | [] => True
  | f :: _ => ∀ k idx len, decode (env.meth f.m).code.body f.pc = some (.invoke k idx, len) →
    ∃ out, overflow env s = some out

/-- The outcomes allowed: that of the specification or, if the stack area cannot hold the frame of
some method, a stack overflow error. -/
def Outcome (env : Env) (pl : Place) (ss : SS) (out : SOut) : Prop :=
  Spec.step env ss = some out ∨ (Exhausted env pl ss.frames ∧ overflow env ss = some out)

theorem wp_step {env : Env} {pl : Place} {s : St} {Q : St → Prop} {T : St → Prop}
    {D : List Slot → St → Prop}
    (h : wp (do let op ← fetch8 env; dispatch env pl.base op.toNat : M Unit) (fun _ s' => Q s')
      (fun s' => wp (throwLabel env pl.base) (fun _ s' => Q s') T D s') D s) :
    wp (step env pl.base) (fun _ s' => Q s') T D s := by
  unfold wp at h
  unfold wp step
  revert h
  generalize (do let op ← fetch8 env; dispatch env pl.base op.toNat : M Unit) s = r
  intro h
  cases r with
  | throw s' => exact h
  | _ => exact h

theorem step_sim {env : Env} {pl : Place} {s : St} {ss : SS} {out : SOut}
    (hbody : ∀ m, (env.meth m).code.body.length < 2 ^ 31) (hp : pl.ok)
    (hr : Rep env pl s ss) (hal : handlersAligned env ss) (hd : ¬ departs env ss)
    (hov : Exhausted env pl ss.frames → overflowDefined env ss) (hs : Spec.step env ss = some out) :
    wp (step env pl.base) (fun _ s' => ∃ out, Outcome env pl ss out ∧ Cont env pl out s')
      (fun s' => ∃ out, Outcome env pl ss out ∧ Unc pl out s')
      (fun r s' => ∃ out, Outcome env pl ss out ∧ Don env pl out r s') s := by
  obtain ⟨frames, heap, log⟩ := ss
  cases frames with
  | nil => exact absurd hs (by simp [Spec.step])
  | cons f rest =>
    obtain ⟨b, nx, ht, hg, hpc, hch, hlow⟩ := hr
    have hs0 := hs
    simp only [Spec.step] at hs
    obtain ⟨⟨i, len⟩, hdec, hs⟩ := bind_some hs
    simp only at hs
    obtain ⟨n, hn, hlb, hcase⟩ := decode_some hdec
    have hpos := decode_pos hdec
    have hb := hbody f.m
    have inv : Inv env pl s.mem f rest b nx := ⟨hg, hb, hch, hlow⟩
    have hlocks : ∀ c ∈ f :: rest, ¬ lockDeparts env c := fun c hc h => hd (Or.inl ⟨c, hc, h⟩)
    have hd2 := fun h => hd (Or.inr h)
    simp only at hd2 ht
    have key : ∀ s', At env s.mem f b nx heap log (f.pc + 1) s' →
        InstrSim env pl s.mem f rest b nx heap log len (isInvoke i)
          (exec env f rest heap log len i) (dispatch env pl.base n) s' := by
      intro s' ht'
      rcases hcase with ⟨h1, h2⟩ | h
      · refine simple_sim hbody hp inv ht' h2 hlb (hlocks f (List.mem_cons_self ..)) ?_ ?_ h1
        · rintro o rfl h
          refine hd2 (Or.inr ?_)
          rw [hdec]
          exact h
        · rintro rfl v j a st x arr e0 e1 e2 e3 e4
          refine Bool.of_not_eq_false fun h => hd2 (Or.inr ?_)
          rw [hdec, e0]
          exact ⟨x, arr, e1, e2, e3, e4, h⟩
      · refine sim_operands inv ht' hdec hn hlb (by omega) hpc (fun h => hd2 (Or.inl h)) ?_ ?_ h
        · rintro idx rfl o st fd x e0 e1 e2 h
          refine hd2 (Or.inr ?_)
          rw [hdec, e0]
          exact ⟨fd, x, e1, e2, h⟩
        · rintro idx rfl fd x e1 e2 h
          refine hd2 (Or.inr ?_)
          rw [hdec]
          exact ⟨fd, x, e1, e2, h⟩
    refine wp_step (wp_bind (wp_fetchU1 ht hb rfl hn fun s1 h1 => ?_))
    have hn' : (BitVec.ofNat 8 n).toNat = n := by
      have := u1_lt hn
      rw [BitVec.toNat_ofNat]
      omega
    rw [hn']
    refine wp_conseq (key s1 h1 out hs) ?_ ?_ ?_
    · intro _ s' h
      exact ⟨out, Or.inl hs0, h⟩
    · rintro s' ⟨st, ip, exc, heap', x, ht', g1, g2, hx, hor⟩
      have hal' : AlignedAt env f len := hal f (List.mem_cons_self ..) i len hdec
      have hcs : ∀ c ∈ rest, CallerOk env c := by
        intro c hc
        refine ⟨hlocks c (List.mem_cons_of_mem _ hc), fun i' len' hd' => ?_⟩
        have := decode_pos hd'
        obtain ⟨_, _, hle, _⟩ := decode_some hd'
        have := hbody c.m
        exact ⟨hal c (List.mem_cons_of_mem _ hc) i' len' hd', by omega, by omega⟩
      have hroom := ht'.room
      simp only at hroom
      obtain ⟨_, _, hb0, _⟩ := hch.bounds (by omega)
      have hch' : Chain env pl s'.mem b nx.toInt (b + f.locals.length) rest :=
        hch.congr ht'.below
      have hlow' : ∀ i, i < pl.b0 → s'.mem i = pl.mem0 i := by
        intro i hi
        rw [ht'.below i (by simp only; omega)]
        exact hlow i hi
      have fin : ∀ out', Outcome env pl ⟨f :: rest, heap, log⟩ out' →
          raise env exc x.cls heap' log (f :: rest) = some out' →
          wp (throwLabel env pl.base)
            (fun _ s' => ∃ out, Outcome env pl ⟨f :: rest, heap, log⟩ out ∧ Cont env pl out s')
            (fun s' => ∃ out, Outcome env pl ⟨f :: rest, heap, log⟩ out ∧ Unc pl out s')
            (fun r s' => ∃ out, Outcome env pl ⟨f :: rest, heap, log⟩ out ∧ Don env pl out r s')
            s' := by
        intro out' ho hra
        refine wp_conseq (wp_throwLabel (D := fun _ _ => False) hp hx ht' g1 g2 hal'
          (hlocks f (List.mem_cons_self ..)) hcs hg hch' hlow' hra) ?_ ?_ ?_
        · intro _ s2 h; exact ⟨out', ho, h⟩
        · intro s2 h; exact ⟨out', ho, h⟩
        · intro _ _ h; exact h.elim
      rcases hor with hra | ⟨hiv, hex, hcl, hnew⟩
      · exact fin out (Or.inl hs0) hra
      · cases i with
        | invoke k idx =>
          obtain ⟨out', ho⟩ := hov hex k idx len hdec
          refine fin out' (Or.inr ⟨hex, ho⟩) ?_
          unfold overflow at ho
          simp only at ho
          rw [hdec] at ho
          have ho' : raiseNew env .stackOverflow ⟨f :: rest, heap, log⟩ = some out' := ho
          unfold raiseNew at ho'
          simp only at ho'
          rw [← hnew, ← hcl] at ho'
          exact ho'
        | _ => exact absurd hiv Bool.false_ne_true
    · intro r s' h
      exact ⟨out, Or.inl hs0, h⟩

/-! ### Executions -/

/-- Runs of the loop. -/
inductive RunRes where
  | running (s : St)
  | done (r : List Slot) (s : St)
  | uncaught (s : St)
  | undef

/-- At most `n` turns of the loop of `interpret3` (src/interpret.cpp:783-3015). -/
def run (env : Env) (base : Int) : Nat → St → RunRes
  | 0, s => .running s
  | n + 1, s =>
    match step env base s with
    | .ok _ s' => run env base n s'
    | .done r s' => .done r s'
    | .throw s' => .uncaught s'
    | .undef => .undef

/-- Executions of the specification, in a stack area that may be exhausted. -/
inductive Reach (env : Env) (pl : Place) (ss0 : SS) : SS → Prop
  | refl : Reach env pl ss0 ss0
  | step {ss ss' : SS} : Reach env pl ss0 ss → Outcome env pl ss (.next ss') → Reach env pl ss0 ss'

/-- Every execution keeps to what the specification defines and avoids the known departures. -/
def Safe (env : Env) (pl : Place) (ss0 : SS) : Prop :=
  ∀ ss, Reach env pl ss0 ss →
    (∃ out, Spec.step env ss = some out) ∧
      (Exhausted env pl ss.frames → overflowDefined env ss) ∧ handlersAligned env ss ∧
      ¬ departs env ss

/-- The result of a run is one of the specification's. -/
def RunOk (env : Env) (pl : Place) (ss0 : SS) : RunRes → Prop
  | .running s => ∃ ss, Reach env pl ss0 ss ∧ Rep env pl s ss
  | .done r s => ∃ ss ss', Reach env pl ss0 ss ∧ Outcome env pl ss (.done r ss') ∧
      RepDone env pl s ss'
  | .uncaught s => ∃ ss, Reach env pl ss0 ss ∧ Outcome env pl ss (.uncaught s.exc s.heap s.log) ∧
      s.sp = pl.b0 ∧ s.frame = pl.n0 ∧ ∀ i, i < pl.b0 → s.mem i = pl.mem0 i
  | .undef => False

theorem run_sim {env : Env} {pl : Place} {ss0 : SS}
    (hbody : ∀ m, (env.meth m).code.body.length < 2 ^ 31) (hp : pl.ok) (hsafe : Safe env pl ss0)
    (n : Nat) : ∀ {s : St} {ss : SS}, Reach env pl ss0 ss → Rep env pl s ss →
      RunOk env pl ss0 (run env pl.base n s) := by
  induction n with
  | zero => intro s ss hre hr; exact ⟨ss, hre, hr⟩
  | succ n ih =>
    intro s ss hre hr
    obtain ⟨⟨out, hs⟩, hov, hal, hd⟩ := hsafe ss hre
    have h := step_sim hbody hp hr hal hd hov hs
    unfold wp at h
    unfold run
    revert h
    generalize step env pl.base s = r
    intro h
    cases r with
    | ok _ s' =>
      obtain ⟨out', ho, ss', rfl, hr'⟩ := h
      exact ih (.step hre ho) hr'
    | done r s' =>
      obtain ⟨out', ho, ss', rfl, hr'⟩ := h
      exact ⟨ss, ss', hre, ho, hr'⟩
    | throw s' =>
      obtain ⟨out', ho, exc, heap, log, rfl, rfl, rfl, rfl, h1, h2, h3⟩ := h
      exact ⟨ss, hre, ho, h1, h2, h3⟩
    | undef => exact h

/-! ### Consequences -/

/-- The result of a turn of the loop is this outcome. -/
def StepIs (env : Env) (pl : Place) (r : Out Unit) : SOut → Prop
  | .next ss => ∃ s, r = .ok () s ∧ Rep env pl s ss
  | .done x ss => ∃ s, r = .done x s ∧ RepDone env pl s ss
  | .uncaught exc heap log => ∃ s, r = .throw s ∧ s.exc = exc ∧ s.heap = heap ∧ s.log = log ∧
      s.sp = pl.b0 ∧ s.frame = pl.n0 ∧ ∀ i, i < pl.b0 → s.mem i = pl.mem0 i

/-- The instruction at hand is an invoke. -/
def AtInvoke (env : Env) (ss : SS) : Prop :=
  match ss.frames with
  | [] => False
  | f :: _ => ∃ k idx len, decode (env.meth f.m).code.body f.pc = some (.invoke k idx, len)

theorem overflow_invoke {env : Env} {ss : SS} {out : SOut} (h : overflow env ss = some out) :
    AtInvoke env ss := by
  obtain ⟨frames, heap, log⟩ := ss
  cases frames with
  | nil => exact absurd h nofun
  | cons f rest =>
    simp only [overflow] at h
    obtain ⟨⟨i, len⟩, hd, h⟩ := bind_some h
    cases i with
    | invoke k idx => exact ⟨k, idx, len, hd⟩
    | _ => exact absurd h nofun

theorem step_exact {env : Env} {pl : Place} {s : St} {ss : SS} {out : SOut}
    (hbody : ∀ m, (env.meth m).code.body.length < 2 ^ 31) (hp : pl.ok)
    (hr : Rep env pl s ss) (hal : handlersAligned env ss) (hd : ¬ departs env ss)
    (hne : ¬ (AtInvoke env ss ∧ Exhausted env pl ss.frames)) (hs : Spec.step env ss = some out) :
    StepIs env pl (step env pl.base s) out := by
  have hov : Exhausted env pl ss.frames → overflowDefined env ss := by
    intro hex
    obtain ⟨frames, heap, log⟩ := ss
    cases frames with
    | nil => trivial
    | cons f rest => intro k idx len hdec; exact absurd ⟨⟨k, idx, len, hdec⟩, hex⟩ hne
  have hout : ∀ out', Outcome env pl ss out' → out' = out := by
    rintro out' (h | ⟨h1, h2⟩)
    · exact Option.some.inj (h.symm.trans hs)
    · exact absurd ⟨overflow_invoke h2, h1⟩ hne
  have h := step_sim hbody hp hr hal hd hov hs
  unfold wp at h
  revert h
  generalize step env pl.base s = r
  intro h
  cases r with
  | ok a s' =>
    obtain ⟨out', ho, ss', rfl, hr'⟩ := h
    rw [← hout _ ho]
    exact ⟨s', rfl, hr'⟩
  | done r s' =>
    obtain ⟨out', ho, ss', rfl, hr'⟩ := h
    rw [← hout _ ho]
    exact ⟨s', rfl, hr'⟩
  | throw s' =>
    obtain ⟨out', ho, exc, heap, log, rfl, h1, h2, h3, h4, h5, h6⟩ := h
    rw [← hout _ ho]
    exact ⟨s', rfl, h1, h2, h3, h4, h5, h6⟩
  | undef => exact h.elim

/-- A deterministic execution that never meets the limits is safe. -/
theorem Safe.ofTrace {env : Env} {pl : Place} {t : Nat → SS} {n : Nat} {r : List Slot} {ss : SS}
    (hstep : ∀ i, i < n → Spec.step env (t i) = some (.next (t (i + 1))))
    (hend : Spec.step env (t n) = some (.done r ss))
    (hex : ∀ i, i ≤ n → ¬ Exhausted env pl (t i).frames)
    (hal : ∀ i, i ≤ n → handlersAligned env (t i)) (hd : ∀ i, i ≤ n → ¬ departs env (t i)) :
    Safe env pl (t 0) := by
  have hre : ∀ ss, Reach env pl (t 0) ss → ∃ i, i ≤ n ∧ ss = t i := by
    intro ss h
    induction h with
    | refl => exact ⟨0, by omega, rfl⟩
    | step h1 h2 ih =>
      obtain ⟨i, hi, rfl⟩ := ih
      rcases h2 with h2 | ⟨h2, _⟩
      · by_cases hin : i < n
        · rw [hstep i hin] at h2
          cases h2
          exact ⟨i + 1, by omega, rfl⟩
        · have : i = n := by omega
          subst this
          rw [hend] at h2
          exact absurd h2 (by simp)
      · exact absurd h2 (hex i hi)
  intro ss h
  obtain ⟨i, hi, rfl⟩ := hre ss h
  refine ⟨?_, fun h => absurd h (hex i hi), hal i hi, hd i hi⟩
  by_cases hin : i < n
  · exact ⟨_, hstep i hin⟩
  · have : i = n := by omega
    subst this
    exact ⟨_, hend⟩

/-- An instruction without operands that only uses the operand stack. -/
theorem op_step {env : Env} {pl : Place} {s : St} {f : Frame} {rest : List Frame} {heap : Heap}
    {log : List Ev} {x : BitVec 8} {o : SOp} {st' : List Slot}
    (hbody : (env.meth f.m).code.body.length < 2 ^ 31)
    (hr : Rep env pl s ⟨f :: rest, heap, log⟩)
    (hx : (env.meth f.m).code.body[f.pc]? = some x) (hop : simple x.toNat = some (.op o))
    (he : o.eval env.fp f.stack = some (.ok st'))
    (hfit : st'.length ≤ (env.meth f.m).code.maxStack)
    (hnext : f.pc + 1 < (env.meth f.m).code.body.length) (hd : ¬ o.departs f.stack) :
    ∃ s', step env pl.base s = .ok () s' ∧
      Rep env pl s' ⟨{ f with pc := f.pc + 1, stack := st' } :: rest, heap, log⟩ := by
  obtain ⟨b, nx, ht, hg, hpc, hch, hlow⟩ := hr
  have hroom := ht.room
  simp only at ht hroom
  have hn : u1 (env.meth f.m).code.body f.pc = some x.toNat := by unfold u1; rw [hx]; rfl
  have hw : wp (step env pl.base)
      (fun _ s' => Rep env pl s' ⟨{ f with pc := f.pc + 1, stack := st' } :: rest, heap, log⟩)
      (fun _ => False) (fun _ _ => False) s := by
    refine wp_step (wp_bind (wp_fetchU1 ht hbody rfl hn fun s1 h1 => ?_))
    rw [BitVec.ofNat_toNat, BitVec.setWidth_eq, simple_dispatch hop]
    have hpo : OpPost env s.mem _ (.ok st') (opBody env o) s1 :=
      op_post o h1 rfl he hd fun st e => by cases e; exact hfit
    unfold OpPost at hpo
    refine wp_conseq hpo ?_ ?_ ?_
    · rintro _ s' ⟨st2, e, ht'⟩
      cases e
      obtain ⟨_, _, hb0, _⟩ := hch.bounds (by omega)
      refine ⟨b, nx, ht'.self, ⟨hg.locals, hg.native, hg.lock⟩, by simp only; omega,
        hch.congr ht'.below, ?_⟩
      intro i hi
      rw [ht'.below i (by simp only; omega)]
      exact hlow i hi
    · rintro s' ⟨_, _, e, _⟩; exact absurd e nofun
    · intro _ _ hf; exact hf.elim
  unfold wp at hw
  revert hw
  generalize step env pl.base s = r
  intro hw
  cases r with
  | ok a s' => exact ⟨s', rfl, hw⟩
  | _ => exact hw.elim

end Avian.Interp
