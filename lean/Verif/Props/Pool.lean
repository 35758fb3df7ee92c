import Verif.Class.PoolFill

/-
Property C52: the constant pool of a class is what the class file states.
-/
namespace Avian.ClassFile
open Avian.Stream

private theorem right_not_raw {es : List Entry} (hl : Legal es) {e : Entry} (he : e ∈ es)
    (ho : e.isObject = true) (v : BitVec 64) : Right es e (.raw v) → False := by
  intro h
  obtain ⟨w, hw⟩ := hl.means e he
  have := h w hw
  subst this
  cases hw <;> simp [Entry.isObject] at ho

private theorem number_step {es st i e} {p' : Pool} {v : BitVec 64}
    (hni : isIndy e = false) (hr : Right es e (.raw v))
    (h1 : Inv es { st with pool := p' }) (h2 : p'.body i = .raw v)
    (h3 : ∀ j, j ≠ i → p'.body j = st.pool.body j)
    (h4 : ∀ j, Filled es st j → Filled es { st with pool := p' } j) :
    Step es i e st { st with pool := p' } :=
  ⟨h1, by show Right es e (p'.body i); rw [h2]; exact hr, h4, fun j _ _ _ hji => h3 j hji,
    fun _ => rfl, fun h => by rw [hni] at h; simp at h⟩

private theorem ofNat_toNat32 (v : BitVec 32) : BitVec.ofNat 32 v.toNat = v := by
  apply BitVec.eq_of_toNat_eq; simp

private theorem ofNat_toNat64 (v : BitVec 64) : BitVec.ofNat 64 v.toNat = v := by
  apply BitVec.eq_of_toNat_eq; simp

/-- A visit of a slot of a legal pool, for any depth of recursion that is enough. -/
private theorem parse_entry (debug : Bool) (d : List (BitVec 8)) (er : Nat) (es : List Entry)
    (hl : Legal es) (index : Nat → Option (BitVec 32))
    (hidx : ∀ k e, (slots es)[k]? = some (e, false) →
      ∃ q, index k = some (BitVec.ofNat 32 q) ∧ Has d q e.bytes ∧ q ≤ d.length) :
    ∀ fuel, Calls d er es fuel (parsePoolEntry debug index fuel) := by
  intro fuel
  induction fuel with
  | zero => intro st i e s q _ hr; omega
  | succ fuel ih =>
    intro st i e s q0 hs hr hinv hon0
    obtain ⟨q, hq, hhas, hle⟩ := hidx i e hs
    have hon1 := on_setPosition q hon0 hle
    obtain ⟨s1, e1, hon⟩ := reads_read1 e.tag d er _ q hon1 hhas.left
    have hpay := hhas.right
    rw [be1_length] at hpay hon
    have heq : ∀ f : P (Nat × St), entryCase debug (parsePoolEntry debug index fuel) st i
        (BitVec.ofNat 8 e.tag).toNat = f → Visits d er es i e st f s1 →
        ∃ st' s' q', parsePoolEntry debug index (fuel + 1) st i s = some ((width e, st'), s') ∧
          On d er s' q' ∧ Step es i e st st' := by
      intro f hf hv
      obtain ⟨st', s', q', h1, h2, h3⟩ := hv
      refine ⟨st', s', q', ?_, h2, h3⟩
      rw [parsePoolEntry, bind_eq (lift_eq hq s)]
      rw [bind_eq (show setPosition (BitVec.ofNat 32 q) s =
        some ((), s.setPosition (BitVec.ofNat 32 q)) from rfl), bind_eq e1]
      show entryCase debug (parsePoolEntry debug index fuel) st i _ s1 = _
      rw [hf]; exact h1
    have hmem := slot_mem hs
    have hnull := fun (ho : e.isObject = true) (f : P St) (hf : Fills d er es i st e f s1) =>
      when_null hinv hs ho (right_not_raw hl hmem ho) hon hf
    cases e with
    | utf8 l => exact heq _ rfl (hnull rfl _ (fill_utf8 hl hinv hs hon hpay))
    | integer v =>
      obtain ⟨s2, e2, o2⟩ := reads_read4 v.toNat d er s1 _ hon hpay
      rw [ofNat_toNat32] at e2
      have hR : Right es (.integer v) (.raw (v.setWidth 64)) := fun w hw => by cases hw; rfl
      obtain ⟨p', h0, h1, h2, h3, h4⟩ := set_number hinv hs rfl hR
      refine heq _ rfl ⟨_, s2, _, ?_, o2, number_step rfl hR h1 h2 h3 h4⟩
      show (read4 >>= fun v => _) s1 = _
      rw [bind_eq e2, bind_eq (lift_eq h0 _)]; rfl
    | float v =>
      obtain ⟨s2, e2, o2⟩ := reads_read4 v.toNat d er s1 _ hon hpay
      rw [ofNat_toNat32] at e2
      have hR : Right es (.float v) (.raw (v.setWidth 64)) := fun w hw => by cases hw; rfl
      obtain ⟨p', h0, h1, h2, h3, h4⟩ := set_number hinv hs rfl hR
      refine heq _ rfl ⟨_, s2, _, ?_, o2, number_step rfl hR h1 h2 h3 h4⟩
      show (read4 >>= fun v => _) s1 = _
      rw [bind_eq e2, bind_eq (lift_eq h0 _)]; rfl
    | long v =>
      obtain ⟨s2, e2, o2⟩ := reads_read8 v.toNat d er s1 _ hon hpay
      rw [ofNat_toNat64] at e2
      have hR : Right es (.long v) (.raw v) := fun w hw => by cases hw; rfl
      obtain ⟨p', h0, h1, h2, h3, h4⟩ := set_number hinv hs rfl hR
      refine heq _ rfl ⟨_, s2, _, ?_, o2, number_step rfl hR h1 h2 h3 h4⟩
      show (read8 >>= fun v => _) s1 = _
      rw [bind_eq e2, bind_eq (lift_eq h0 _)]; rfl
    | double v =>
      obtain ⟨s2, e2, o2⟩ := reads_read8 v.toNat d er s1 _ hon hpay
      rw [ofNat_toNat64] at e2
      have hR : Right es (.double v) (.raw v) := fun w hw => by cases hw; rfl
      obtain ⟨p', h0, h1, h2, h3, h4⟩ := set_number hinv hs rfl hR
      refine heq _ rfl ⟨_, s2, _, ?_, o2, number_step rfl hR h1 h2 h3 h4⟩
      show (read8 >>= fun v => _) s1 = _
      rw [bind_eq e2, bind_eq (lift_eq h0 _)]; rfl
    | cls m => exact heq _ rfl (hnull rfl _ (fill_cls hl ih hinv hs hon hpay hr))
    | string m => exact heq _ rfl (hnull rfl _ (fill_string debug hl ih hinv hs hon hpay hr))
    | field c nt =>
      obtain ⟨w, hw⟩ := hl.means _ hmem
      cases hw with
      | field hm => exact heq _ rfl (hnull rfl _ (fill_member hl ih hinv hs hon hpay hr rfl hm
          (fun w hw => by cases hw with | field h => rw [hm] at h; cases h; rfl)))
    | method c nt =>
      obtain ⟨w, hw⟩ := hl.means _ hmem
      cases hw with
      | method hm => exact heq _ rfl (hnull rfl _ (fill_member hl ih hinv hs hon hpay hr rfl hm
          (fun w hw => by cases hw with | method h => rw [hm] at h; cases h; rfl)))
    | interfaceMethod c nt =>
      obtain ⟨w, hw⟩ := hl.means _ hmem
      cases hw with
      | interfaceMethod hm =>
        exact heq _ rfl (hnull rfl _ (fill_member hl ih hinv hs hon hpay hr rfl hm
          (fun w hw => by cases hw with | interfaceMethod h => rw [hm] at h; cases h; rfl)))
    | nameAndType a b => exact heq _ rfl (hnull rfl _ (fill_nameAndType hl ih hinv hs hon hpay hr))
    | methodHandle k r => exact heq _ rfl (hnull rfl _ (fill_methodHandle hl ih hinv hs hon hpay hr))
    | methodType m => exact heq _ rfl (hnull rfl _ (fill_methodType hl ih hinv hs hon hpay hr))
    | invokeDynamic b nt =>
      exact heq _ rfl (hnull rfl _ (fill_invokeDynamic hl ih hinv hs hon hpay hr))

/-- The slots of the invokedynamic constants before `i`. -/
private def indySlots (es : List Entry) (i : Nat) : List Nat :=
  (List.range i).filter fun j => match (slots es)[j]? with
    | some (e, false) => isIndy e
    | _ => false

private theorem rank_lt (e : Entry) : rank e < 4 := by cases e <;> simp [rank]

/-- A main slot is followed by the slot after its width, which is a main slot or the end. -/
private theorem next_main (es : List Entry) : ∀ i e, (slots es)[i]? = some (e, false) →
    (∀ k, k < width e → k ≠ 0 → (slots es)[i + k]? = some (e, true)) ∧
    (i + width e = (slots es).length ∨ ∃ e', (slots es)[i + width e]? = some (e', false)) := by
  induction es with
  | nil => intro i e h; simp [slots] at h
  | cons x es ih =>
    intro i e h
    by_cases hi : width x ≤ i
    · obtain ⟨k, rfl⟩ : ∃ k, i = width x + k := ⟨i - width x, by omega⟩
      rw [slots_skip] at h
      obtain ⟨h1, h2⟩ := ih k e h
      refine ⟨fun j hj hj0 => ?_, ?_⟩
      · rw [Nat.add_assoc, slots_skip]; exact h1 j hj hj0
      · rw [Nat.add_assoc, slots_skip, slots_cons_length]
        rcases h2 with h2 | h2
        · exact Or.inl (by omega)
        · exact Or.inr h2
    · by_cases hi0 : i = 0
      · subst hi0
        rw [slots_zero] at h
        obtain rfl : x = e := by simpa using h
        refine ⟨fun j hj hj0 => ?_, ?_⟩
        · rw [Nat.zero_add]; exact (slots_second x es j hj0 hj).1
        · rw [Nat.zero_add, slots_cons_length]
          cases es with
          | nil => exact Or.inl (by simp [slots])
          | cons y ys =>
            refine Or.inr ⟨y, ?_⟩
            have := slots_skip x (y :: ys) 0
            rw [Nat.add_zero] at this
            rw [this, slots_zero]
      · rw [(slots_second x es i hi0 (by omega)).1] at h
        simp at h

private theorem range_filter_add (f : Nat → Bool) (i : Nat) : ∀ w, 0 < w →
    (∀ k, k < w → k ≠ 0 → f (i + k) = false) →
    (List.range (i + w)).filter f = (List.range i).filter f ++ (if f i then [i] else []) := by
  intro w
  induction w with
  | zero => intro h; omega
  | succ w ih =>
    intro _ h
    rw [← Nat.add_assoc, List.range_succ, List.filter_append]
    by_cases hw : w = 0
    · subst hw
      rw [Nat.add_zero]
      congr 1
      cases hf : f i <;> simp [List.filter, hf]
    · rw [ih (by omega) (fun k h1 h2 => h k (by omega) h2)]
      have := h w (by omega) hw
      simp [List.filter, this]

private theorem fill_loop (debug : Bool) (depth : Nat) (hdepth : 4 ≤ depth) (d : List (BitVec 8))
    (er : Nat) (es : List Entry) (hl : Legal es) (index : Nat → Option (BitVec 32))
    (hidx : ∀ k e, (slots es)[k]? = some (e, false) →
      ∃ q, index k = some (BitVec.ofNat 32 q) ∧ Has d q e.bytes ∧ q ≤ d.length) :
    ∀ fuel st i s q, (slots es).length < fuel + i →
    (i = (slots es).length ∨ ∃ e, (slots es)[i]? = some (e, false)) →
    Inv es st → On d er s q → (∀ j, j < i → Filled es st j) →
    (∀ j e, i ≤ j → (slots es)[j]? = some (e, false) → isIndy e = true →
      st.pool.body j = .raw 0#64) →
    st.invocations = indySlots es i →
    ∃ st' s' q', fillLoop debug index depth (slots es).length fuel st i s = some (st', s') ∧
      On d er s' q' ∧ Inv es st' ∧ (∀ j, Filled es st' j) ∧
      st'.invocations = indySlots es (slots es).length := by
  intro fuel
  induction fuel with
  | zero =>
    intro st i s q h1 h2
    rcases h2 with h2 | ⟨e, h2⟩
    · omega
    · have := slot_lt h2; omega
  | succ fuel ih =>
    intro st i s q h1 h2 hinv hon hfil hind hlist
    rcases h2 with h2 | ⟨e, h2⟩
    · subst h2
      refine ⟨st, s, q, ?_, hon, hinv, ?_, hlist⟩
      · simp only [fillLoop, Nat.lt_irrefl, if_false]; rfl
      · intro j
        rcases Nat.lt_or_ge j (slots es).length with h | h
        · exact hfil j h
        · intro e he; have := slot_lt he; omega
    · have hlt := slot_lt h2
      have hwp := width_pos e
      obtain ⟨n1, n2⟩ := next_main es i e h2
      obtain ⟨st1, s1, q1, c1, o1, step⟩ := parse_entry debug d er es hl index hidx depth st i e s q
        h2 (by have := rank_lt e; omega) hinv hon
      obtain ⟨st2, s2, q2, c2, r2⟩ := ih st1 (i + width e) s1 q1 (by omega) n2 step.inv o1
        (by
          intro j hj
          by_cases hji : j < i
          · exact step.keep j (hfil j hji)
          · intro e' he'
            by_cases hj' : j = i
            · subst hj'
              rw [h2] at he'
              obtain rfl : e = e' := by simpa using he'
              exact step.here
            · have := n1 (j - i) (by omega) (by omega)
              rw [show i + (j - i) = j by omega, he'] at this
              simp at this)
        (by
          intro j e' hj he' hie
          rw [step.indy j e' he' hie (by omega)]
          exact hind j e' (by omega) he' hie)
        (by
          rw [indySlots, range_filter_add _ i (width e) hwp (by
            intro k hk hk0
            simp only [n1 k hk hk0]), ← indySlots, ← hlist]
          simp only [h2]
          cases hie : isIndy e with
          | true =>
            rw [step.listed hie (hind i e (Nat.le_refl i) h2 hie)]; rfl
          | false => rw [step.quiet hie]; simp)
      refine ⟨st2, s2, q2, ?_, r2⟩
      rw [fillLoop, if_pos hlt, bind_eq c1]
      exact c2

/-- C52: reading a legal constant pool, wherever it stands in the file and whatever the order of
the constants and the references between them, succeeds, consumes exactly the pool, and gives a
pool of the stated size in which every constant number holds exactly what the class file states; a
slot is marked as an object exactly when it holds one, and as floating point exactly when it
belongs to a float or double.  A recursion depth of four is enough.  The recorded invocations are
the invokedynamic constants, each once. -/
theorem pool_as_written (debug : Bool) (depth : Nat) (hdepth : 4 ≤ depth) (es : List Entry)
    (hl : Legal es) (d : List (BitVec 8)) (er : Nat) (s : Stream) (q : Nat) (hon : On d er s q)
    (hhas : Has d q (poolBytes es)) :
    ∃ st s', parsePool debug depth s = some (st, s') ∧
      On d er s' (q + (poolBytes es).length) ∧
      st.pool.poolSize = (slots es).length ∧
      (∀ n e w, constant es n = some e → Means es e w → st.pool.body (n - 1) = w) ∧
      (∀ n e, constant es n = some e → st.pool.isObject (n - 1) = some e.isObject) ∧
      (∀ k e b, (slots es)[k]? = some (e, b) →
        st.pool.bit st.pool.poolSize k = some e.isFloat) ∧
      st.invocations.Nodup ∧
      (∀ k, k ∈ st.invocations ↔ ∃ b nt, constant es (k + 1) = some (.invokeDynamic b nt)) := by
  have hfew := hl.few
  obtain ⟨s1, e1, o1⟩ := reads_read2 ((slots es).length + 1) d er s q hon hhas.left
  have hn0 : ¬ BitVec.ofNat 16 ((slots es).length + 1) = 0#16 := by
    intro h
    have := congrArg BitVec.toNat h
    simp at this; omega
  have hcount : (BitVec.ofNat 16 ((slots es).length + 1)).toNat - 1 = (slots es).length := by
    simp; omega
  obtain ⟨p0, m0, mk0, z0⟩ := masks_new (slots es).length
  have final : ∀ st, Inv es st → (∀ j, Filled es st j) →
      st.invocations = indySlots es (slots es).length →
      st.pool.poolSize = (slots es).length ∧
      (∀ n e w, constant es n = some e → Means es e w → st.pool.body (n - 1) = w) ∧
      (∀ n e, constant es n = some e → st.pool.isObject (n - 1) = some e.isObject) ∧
      (∀ k e b, (slots es)[k]? = some (e, b) →
        st.pool.bit st.pool.poolSize k = some e.isFloat) ∧
      st.invocations.Nodup ∧
      (∀ k, k ∈ st.invocations ↔ ∃ b nt, constant es (k + 1) = some (.invokeDynamic b nt)) := by
    intro st hinv hf hlist
    have hps := hinv.masks.poolSize
    refine ⟨hps, ?_, ?_, ?_, ?_, ?_⟩
    · intro n e w hc hm
      exact hf _ e (constant_slot hc).2 w hm
    · intro n e hc
      have hsl := (constant_slot hc).2
      have hlt := slot_lt hsl
      rw [hinv.masks.isObject (by unfold words; omega)]
      simp [objAt, hsl]
    · intro k e b hk
      rw [hps, hinv.masks.bit (slot_lt hk)]
      simp [floatAt, hk]
    · rw [hlist]; exact List.Nodup.sublist List.filter_sublist List.nodup_range
    · intro k
      rw [hlist, indySlots, List.mem_filter, List.mem_range]
      constructor
      · rintro ⟨_, h⟩
        split at h
        · rename_i e he
          cases e <;> simp [isIndy] at h
          rename_i b nt
          exact ⟨b, nt, by simp [constant, he]⟩
        · simp at h
      · rintro ⟨b, nt, h⟩
        have hsl := (constant_slot h).2
        simp only [Nat.add_sub_cancel] at hsl
        exact ⟨slot_lt hsl, by simp [hsl, isIndy]⟩
  have inv0 : ∀ p, Masks (slots es).length p (objAt es) (floatAt es) →
      (∀ j, j < (slots es).length → p.body j = .raw 0#64) → Inv es ⟨p, []⟩ := by
    intro p hm hz
    exact ⟨hm, fun j e hj => Or.inl (hz j (slot_lt hj)), fun j e hj => hz j (slot_lt hj)⟩
  by_cases hz : (slots es).length = 0
  · refine ⟨⟨p0, []⟩, s1, ?_, ?_, final _ (inv0 p0 ?_ z0) ?_ ?_⟩
    · rw [parsePool, bind_eq e1]
      simp only [if_neg hn0, hcount]
      rw [bind_eq (lift_eq m0 _), hz, if_neg (by omega)]; rfl
    · have hes : es = [] := by
        cases es with
        | nil => rfl
        | cons e es => rw [slots_cons_length] at hz; have := width_pos e; omega
      subst hes
      exact o1
    · refine mk0.congr (fun j => ?_) (fun j => ?_)
      · simp [objAt, List.length_eq_zero_iff.1 hz]
      · simp [floatAt, List.length_eq_zero_iff.1 hz]
    · intro j e he; have := slot_lt he; omega
    · simp [indySlots, hz]
  · obtain ⟨p1, idx, s2, e2, o2, m2, b2, _, x2⟩ := scan_loop d er (slots es).length es
      ((slots es).length + 1) 0 p0 _ _ (fun _ => none) s1 _ hl.fits (by omega) (by omega) mk0 o1
      hhas.right
    have hinv := inv0 p1 (m2.congr (fun j => by simp) (fun j => by simp))
      (fun j hj => (b2 j hj).trans (z0 j hj))
    obtain ⟨st, s3, q3, e3, o3, inv3, f3, l3⟩ := fill_loop debug depth hdepth d er es hl idx
      (fun k e hk => by have := x2 k e hk; rwa [Nat.zero_add] at this)
      ((slots es).length + 1) ⟨p1, []⟩ 0 s2 _ (by omega)
      (by
        cases es with
        | nil => simp [slots] at hz
        | cons e es => exact Or.inr ⟨e, slots_zero e es⟩)
      hinv o2 (fun j hj => by omega) (fun j e _ hj _ => (b2 j (slot_lt hj)).trans (z0 j (slot_lt hj)))
      (by simp [indySlots])
    refine ⟨st, s3.setPosition s2.position, ?_, ?_, final st inv3 f3 l3⟩
    · rw [parsePool, bind_eq e1]
      simp only [if_neg hn0, hcount]
      rw [bind_eq (lift_eq m0 _), if_pos hz, bind_eq e2]
      show (position >>= fun stop => _) s2 = _
      rw [bind_eq (show position s2 = some (s2.position, s2) from rfl), bind_eq e3]
      rfl
    · rw [on_position o2]
      rw [show q + (poolBytes es).length = q + (be2 ((slots es).length + 1)).length +
        (es.flatMap Entry.bytes).length by simp [poolBytes, List.length_append, Nat.add_assoc]]
      exact on_setPosition _ o3 o2.le

/-! ### A pool with forward references, a double, a string, a method handle and an invokedynamic -/

/-- ASCII text. -/
private def ascii (s : String) : List (BitVec 8) := s.toList.map Descriptor.ch

/-- 1 class, 2 its name, 3 method, 4 name and type, 5-6 double, 7 name, 8 type, 9 string, 10 method
handle, 11 invokedynamic, 12 float, 13 method type, 14 text with a NUL and a euro sign. -/
def samplePool : List Entry :=
  [.cls 2, .utf8 (ascii "A"), .method 1 4, .nameAndType 7 8, .double 0x3FF0000000000000#64,
   .utf8 (ascii "f"), .utf8 (ascii "(J)I"), .string 14, .methodHandle 6 3, .invokeDynamic 0 4,
   .float 0x3F800000#32, .methodType 8, .utf8 [0xC0#8, 0x80#8, 0xE2#8, 0x82#8, 0xAC#8]]

theorem samplePool_legal : Legal samplePool where
  fits := by
    intro e he
    simp only [samplePool, List.mem_cons, List.not_mem_nil, or_false] at he
    rcases he with rfl|rfl|rfl|rfl|rfl|rfl|rfl|rfl|rfl|rfl|rfl|rfl|rfl <;>
      first | exact trivial | (simp only [Entry.Fits]; decide)
  means := by
    intro e he
    simp only [samplePool, List.mem_cons, List.not_mem_nil, or_false] at he
    rcases he with rfl|rfl|rfl|rfl|rfl|rfl|rfl|rfl|rfl|rfl|rfl|rfl|rfl
    · exact ⟨_, .cls (l := ascii "A") (by decide)⟩
    · exact ⟨_, .utf8 _⟩
    · exact ⟨_, .method (x := ascii "A") (n := ascii "f") (t := ascii "(J)I") (by decide)⟩
    · exact ⟨_, .nameAndType (x := ascii "f") (y := ascii "(J)I") (by decide) (by decide)⟩
    · exact ⟨_, .double _⟩
    · exact ⟨_, .utf8 _⟩
    · exact ⟨_, .utf8 _⟩
    · exact ⟨_, .string (us := [0#16, 0x20AC#16]) (by decide)⟩
    · exact ⟨_, .methodHandle (x := ascii "A") (n := ascii "f") (t := ascii "(J)I") (by decide)⟩
    · exact ⟨_, .invokeDynamic (n := ascii "f") (t := ascii "(J)I") (params := [.prim .long])
        (ret := some (.prim .int)) (by decide) (by decide) (by simp [Descriptor.Ty.Ok])⟩
    · exact ⟨_, .float _⟩
    · exact ⟨_, .methodType (l := ascii "(J)I") (by decide)⟩
    · exact ⟨_, .utf8 _⟩
  few := by decide

/-- The hypotheses of `pool_as_written` hold for it, between other bytes. -/
example : ∃ st s', parsePool true 4 ((Stream.new ([1#8, 2#8] ++ poolBytes samplePool ++ [3#8])).setPosition 2#32)
    = some (st, s') ∧ st.pool.body 8 = .obj (.str [0#16, 0x20AC#16]) := by
  obtain ⟨st, s', h1, _, _, h2, _⟩ := pool_as_written true 4 (Nat.le_refl 4) samplePool
    samplePool_legal ([1#8, 2#8] ++ poolBytes samplePool ++ [3#8]) 0 _ 2
    (on_setPosition 2 (on_new _ (by decide)) (by decide)) (Has.intro [1#8, 2#8] _ [3#8])
  exact ⟨st, s', h1, h2 9 (.string 14) _ (by decide) (.string (us := [0#16, 0x20AC#16]) (by decide))⟩

/-! ### Limits of the code -/

/-- C52 (limit of the code): a class constant naming itself makes the parser recurse for ever: no
recursion depth is enough. -/
theorem self_reference_never_ends (debug : Bool) (depth : Nat) :
    parsePool debug depth (Stream.new (poolBytes [.cls 1])) = none := by
  have loop : ∀ fuel (st : St) (s : Stream) q, On (poolBytes [.cls 1]) 0 s q →
      st.pool.object 0 = some none →
      parsePoolEntry debug (fun j => if j = 0 then some 2#32 else none) fuel st 0 s = none := by
    intro fuel
    induction fuel with
    | zero => intros; rfl
    | succ fuel ih =>
      intro st s q hon hobj
      have hon1 := on_setPosition 2 hon (by decide)
      obtain ⟨s1, e1, o1⟩ := reads_read1 7 _ 0 _ 2 hon1 ⟨be2 1, by decide⟩
      obtain ⟨s2, e2, o2⟩ := reads_read2 1 _ 0 s1 _ o1 ⟨[], by decide⟩
      rw [parsePoolEntry, bind_eq (show lift (if (0 : Nat) = 0 then some 2#32 else none) s =
          some (2#32, s) from rfl),
        bind_eq (show setPosition 2#32 s = some ((), s.setPosition 2#32) from rfl), bind_eq e1]
      show whenNull st 0 (entryClass _ st 0) s1 = none
      rw [whenNull, bind_eq (lift_eq hobj _)]
      show (entryClass _ st 0 >>= fun st => _) s1 = none
      have : entryClass (parsePoolEntry debug (fun j => if j = 0 then some 2#32 else none) fuel)
          st 0 s1 = none := by
        rw [entryClass, bind_eq e2]
        show (parsePoolEntry debug (fun j => if j = 0 then some 2#32 else none) fuel st 0 s2).bind _
          = none
        rw [ih st s2 _ o2 hobj]; rfl
      show (entryClass _ st 0 s1).bind _ = none
      rw [this]; rfl
  obtain ⟨s1, e1, o1⟩ := reads_read2 2 (poolBytes [.cls 1]) 0 _ 0 (on_new _ (by decide))
    ⟨(Entry.cls 1).bytes, by decide⟩
  obtain ⟨p0, m0, mk0, z0⟩ := masks_new 1
  obtain ⟨p1, idx, s2, e2, o2, m2, b2, _, x2⟩ := scan_loop (poolBytes [.cls 1]) 0 1 [.cls 1]
      2 0 p0 _ _ (fun _ => none) s1 _ (by intro e he; simp at he; subst he; show 1 < 65536; omega)
      rfl (by omega) mk0 o1 ⟨[], by decide⟩
  have hidx : idx = fun j => if j = 0 then some 2#32 else none := by
    have hsl := e2
    rw [scanLoop, if_pos (by omega)] at hsl
    have hp : s1.position = 2#32 := on_position o1
    have hpos : position s1 = some (s1.position, s1) := rfl
    rw [bind_eq hpos] at hsl
    obtain ⟨p', r1, _⟩ := scan_entry mk0 (.cls 1) (show 1 < 65536 by omega) (i := 0) (by decide)
    obtain ⟨s1', e1', _⟩ := r1 _ 0 s1 _ o1 ⟨[], by decide⟩
    rw [bind_eq e1'] at hsl
    have hsl2 : some ((p', fun j => if j = 0 then some s1.position else none), s1') =
        some ((p1, idx), s2) := hsl
    simp only [Option.some.injEq, Prod.mk.injEq] at hsl2
    rw [← hsl2.1.2, hp]
  rw [parsePool, bind_eq e1]
  show (lift (makeSingletonOfSize (1 + poolMaskSizeFor 1)) >>= fun pool => _) s1 = none
  rw [bind_eq (lift_eq m0 _)]
  show (scanLoop 1 2 p0 (fun _ => none) 0 >>= fun r => _) s1 = none
  rw [bind_eq e2, bind_eq (show position s2 = some (s2.position, s2) from rfl)]
  have hobj : (⟨p1, []⟩ : St).pool.object 0 = some none := by
    show p1.object 0 = _
    unfold Pool.object
    rw [m2.isObject (by decide), b2 0 (by omega), z0 0 (by omega)]
    rfl
  have hfill : fillLoop debug idx depth 1 2 ⟨p1, []⟩ 0 s2 = none := by
    rw [fillLoop, if_pos (by omega), hidx]
    show (parsePoolEntry debug _ depth ⟨p1, []⟩ 0 s2).bind _ = none
    rw [loop depth _ s2 _ o2 hobj]; rfl
  show (fillLoop debug idx depth 1 2 ⟨p1, []⟩ 0 s2).bind _ = none
  rw [hfill]; rfl

/-- C52 (limit of the code): a reference to constant zero, to a number beyond the pool, or to the
second half of a long makes the parser use an offset that was never written. -/
theorem bad_reference_reads_outside :
    (parsePool false 100 (Stream.new (poolBytes [.cls 0]))).isNone = true ∧
    (parsePool false 100 (Stream.new (poolBytes [.cls 7]))).isNone = true ∧
    (parsePool false 100 (Stream.new (poolBytes [.long 5#64, .cls 2]))).isNone = true := by
  decide +kernel

/-- C52 (limit of the code): a reference to a constant of the wrong kind is not refused with an
error of the program: it is followed as if it had the right kind. -/
theorem wrong_kind_undefined :
    (parsePool false 100 (Stream.new (poolBytes [.cls 2, .integer 5#32]))).isNone = true ∧
    (parsePool false 100 (Stream.new (poolBytes [.cls 2, .cls 3, .utf8 []]))).isNone = true := by
  decide +kernel

end Avian.ClassFile
