import Verif.Class.PoolScan
import Verif.Props.Utf8
import Verif.Props.Descriptor

/-
What the constants of a class file mean, and the second pass of the parser.
-/
namespace Avian.ClassFile
open Avian.Stream

/-! ### Meaning (JVM specification, 4.4 and 5.1) -/

/-- The text constant with this number. -/
def textAt (es : List Entry) (n : Nat) : Option (List (BitVec 8)) :=
  match constant es n with
  | some (.utf8 l) => some l
  | _ => none

/-- The class constant with this number: the name of the class. -/
def classAt (es : List Entry) (n : Nat) : Option (List (BitVec 8)) :=
  match constant es n with
  | some (.cls m) => textAt es m
  | _ => none

/-- The name-and-type constant with this number. -/
def nameTypeAt (es : List Entry) (n : Nat) : Option (List (BitVec 8) × List (BitVec 8)) :=
  match constant es n with
  | some (.nameAndType a b) =>
    match textAt es a, textAt es b with
    | some x, some y => some (x, y)
    | _, _ => none
  | _ => none

/-- A class and a name and type. -/
def memberOf (es : List Entry) (c nt : Nat) :
    Option (List (BitVec 8) × List (BitVec 8) × List (BitVec 8)) :=
  match classAt es c, nameTypeAt es nt with
  | some x, some y => some (x, y)
  | _, _ => none

/-- The member constant with this number: class, name and type. -/
def memberAt (es : List Entry) (n : Nat) :
    Option (List (BitVec 8) × List (BitVec 8) × List (BitVec 8)) :=
  match constant es n with
  | some (.field c nt) | some (.method c nt) | some (.interfaceMethod c nt) => memberOf es c nt
  | _ => none

/-- What the program must find in the place of a constant. -/
inductive Means (es : List Entry) : Entry → Word → Prop where
  | utf8 (l) : Means es (.utf8 l) (.obj (.bytes l))
  | integer (v) : Means es (.integer v) (.raw (v.setWidth 64))
  | float (v) : Means es (.float v) (.raw (v.setWidth 64))
  | long (v) : Means es (.long v) (.raw v)
  | double (v) : Means es (.double v) (.raw v)
  | cls {m l} : textAt es m = some l → Means es (.cls m) (.obj (.ref 0 none l none))
  /-- The characters whose class file form is the text. -/
  | string {m us} : textAt es m = some (us.flatMap Utf8.classFileUnit) →
      Means es (.string m) (.obj (.str us))
  | field {c nt x n t} : memberOf es c nt = some (x, n, t) →
      Means es (.field c nt) (.obj (.ref 0 (some x) n (some t)))
  | method {c nt x n t} : memberOf es c nt = some (x, n, t) →
      Means es (.method c nt) (.obj (.ref 0 (some x) n (some t)))
  | interfaceMethod {c nt x n t} : memberOf es c nt = some (x, n, t) →
      Means es (.interfaceMethod c nt) (.obj (.ref 0 (some x) n (some t)))
  | nameAndType {a b x y} : textAt es a = some x → textAt es b = some y →
      Means es (.nameAndType a b) (.obj (.pair x y))
  | methodHandle {k r x n t} : memberAt es r = some (x, n, t) →
      Means es (.methodHandle k r) (.obj (.ref k (some x) n (some t)))
  | methodType {d l} : textAt es d = some l → Means es (.methodType d) (.obj (.bytes l))
  /-- The parameter and return types are those of the descriptor. -/
  | invokeDynamic {b nt n t} {params : List Descriptor.Ty} {ret : Option Descriptor.Ty} :
      nameTypeAt es nt = some (n, t) → t ++ [0#8] = Descriptor.text params ret →
      (∀ p ∈ params, p.Ok) →
      Means es (.invokeDynamic b nt) (.obj (.invocation b n t params.length
        (Descriptor.slots params) (Descriptor.kind ret)))

/-- A constant pool every constant of which has a meaning. -/
structure Legal (es : List Entry) : Prop where
  fits : ∀ e ∈ es, e.Fits
  means : ∀ e ∈ es, ∃ w, Means es e w
  few : (slots es).length < 65535

/-! ### Filling -/

theorem slot_mem {es : List Entry} {k : Nat} {e : Entry} {b : Bool} (h : (slots es)[k]? = some (e, b)) :
    e ∈ es := by
  induction es generalizing k with
  | nil => simp [slots] at h
  | cons x es ih =>
    by_cases hk : width x ≤ k
    · obtain ⟨k', rfl⟩ : ∃ k', k = width x + k' := ⟨k - width x, by omega⟩
      rw [slots_skip] at h
      exact List.mem_cons_of_mem _ (ih h)
    · by_cases hk0 : k = 0
      · subst hk0
        rw [slots_zero] at h
        simp at h
        rw [h.1]; exact List.mem_cons_self ..
      · rw [(slots_second x es k hk0 (by omega)).1] at h
        simp at h
        rw [h.1]; exact List.mem_cons_self ..

theorem constant_slot {es : List Entry} {n : Nat} {e : Entry} (h : constant es n = some e) :
    n ≠ 0 ∧ (slots es)[n - 1]? = some (e, false) := by
  cases n with
  | zero => simp [constant] at h
  | succ k =>
    refine ⟨by omega, ?_⟩
    simp only [constant] at h
    split at h
    · rename_i e' he; simp only [Option.some.injEq] at h; subst h; exact he
    · simp at h

theorem slot_lt {es : List Entry} {k : Nat} {x : Entry × Bool} (h : (slots es)[k]? = some x) :
    k < (slots es).length := by
  rcases Nat.lt_or_ge k (slots es).length with h1 | h1
  · exact h1
  · rw [List.getElem?_eq_none h1] at h; simp at h

/-- How deep the parser follows references. -/
def rank : Entry → Nat
  | .cls _ | .string _ | .nameAndType _ _ | .methodType _ => 1
  | .field _ _ | .method _ _ | .interfaceMethod _ _ | .invokeDynamic _ _ => 2
  | .methodHandle _ _ => 3
  | _ => 0

def isIndy : Entry → Bool
  | .invokeDynamic _ _ => true
  | _ => false

/-- The word is the meaning of the constant. -/
def Right (es : List Entry) (e : Entry) (x : Word) : Prop := ∀ w, Means es e w → x = w

/-- The slot holds its meaning. -/
def Filled (es : List Entry) (st : St) (j : Nat) : Prop :=
  ∀ e, (slots es)[j]? = some (e, false) → Right es e (st.pool.body j)

/-- Every slot is null or holds its meaning, and the masks are those of the file. -/
structure Inv (es : List Entry) (st : St) : Prop where
  masks : Masks (slots es).length st.pool (objAt es) (floatAt es)
  slot : ∀ j e, (slots es)[j]? = some (e, false) →
    st.pool.body j = .raw 0#64 ∨ Right es e (st.pool.body j)
  second : ∀ j e, (slots es)[j]? = some (e, true) → st.pool.body j = .raw 0#64

/-- What a visit of slot `i` does. -/
structure Step (es : List Entry) (i : Nat) (e : Entry) (st st' : St) : Prop where
  inv : Inv es st'
  here : Right es e (st'.pool.body i)
  keep : ∀ j, Filled es st j → Filled es st' j
  indy : ∀ j e', (slots es)[j]? = some (e', false) → isIndy e' = true → j ≠ i →
    st'.pool.body j = st.pool.body j
  quiet : isIndy e = false → st'.invocations = st.invocations
  listed : isIndy e = true → st.pool.body i = .raw 0#64 →
    st'.invocations = st.invocations ++ [i]

theorem Inv.object {es st} (h : Inv es st) {j : Nat} {e : Entry}
    (hs : (slots es)[j]? = some (e, false)) (ho : e.isObject = true) :
    st.pool.object j = match st.pool.body j with
      | .raw v => if v = 0#64 then some none else none
      | .obj o => some (some o) := by
  have hlt : j < words (slots es).length := by have := slot_lt hs; unfold words; omega
  unfold Pool.object
  rw [h.masks.isObject hlt, Option.bind_some]
  have : objAt es j = true := by simp [objAt, hs, ho]
  rw [this, if_pos rfl]
  cases st.pool.body j <;> rfl

theorem minus1_ofNat {m : Nat} (h0 : m ≠ 0) (h : m < 65536) : minus1 (BitVec.ofNat 16 m) = m - 1 := by
  unfold minus1
  simp only [BitVec.toNat_sub, BitVec.toNat_setWidth, BitVec.toNat_ofNat]
  omega

/-- Writing the meaning of an object constant. -/
theorem set_slot {es st} (h : Inv es st) {i : Nat} {e : Entry} {o : Obj}
    (hs : (slots es)[i]? = some (e, false)) (hr : Right es e (.obj o)) :
    ∃ st', st.set i o = some st' ∧ Inv es st' ∧ st'.pool.body i = .obj o ∧
      (∀ j, j ≠ i → st'.pool.body j = st.pool.body j) ∧ st'.invocations = st.invocations ∧
      ∀ j, Filled es st j → Filled es st' j := by
  obtain ⟨p', h1, h2, h3, h4⟩ := h.masks.store (slot_lt hs) (.obj o)
  refine ⟨{ st with pool := p' }, by rw [St.set, h1]; rfl, ⟨h2, ?_, ?_⟩, h3, h4, rfl, ?_⟩
  · intro j e' hj
    by_cases hji : j = i
    · subst hji
      rw [hs] at hj
      obtain rfl : e = e' := by simpa using hj
      exact Or.inr (by show Right es e (p'.body j); rw [h3]; exact hr)
    · show p'.body j = _ ∨ Right es e' (p'.body j)
      rw [h4 j hji]; exact h.slot j e' hj
  · intro j e' hj
    have hji : j ≠ i := by intro hji; subst hji; rw [hs] at hj; simp at hj
    show p'.body j = _
    rw [h4 j hji]; exact h.second j e' hj
  · intro j hf e' hj
    by_cases hji : j = i
    · subst hji
      rw [hs] at hj
      obtain rfl : e = e' := by simpa using hj
      show Right es e (p'.body j); rw [h3]; exact hr
    · show Right es e' (p'.body j)
      rw [h4 j hji]; exact hf e' hj

/-- Writing the meaning of a number constant. -/
theorem set_number {es st} (h : Inv es st) {i : Nat} {e : Entry} {v : BitVec 64}
    (hs : (slots es)[i]? = some (e, false)) (ho : e.isObject = false) (hr : Right es e (.raw v)) :
    ∃ p', st.pool.setValue i v = some p' ∧ Inv es { st with pool := p' } ∧ p'.body i = .raw v ∧
      (∀ j, j ≠ i → p'.body j = st.pool.body j) ∧
      ∀ j, Filled es st j → Filled es { st with pool := p' } j := by
  have hlt : i < words (slots es).length := by have := slot_lt hs; unfold words; omega
  obtain ⟨p', h1, h2, h3, h4⟩ := h.masks.store (slot_lt hs) (.raw v)
  have hob : objAt es i = false := by simp [objAt, hs, ho]
  refine ⟨p', by rw [Pool.setValue, h.masks.isObject hlt, hob]; exact h1, ⟨h2, ?_, ?_⟩, h3, h4, ?_⟩
  · intro j e' hj
    by_cases hji : j = i
    · subst hji
      rw [hs] at hj
      obtain rfl : e = e' := by simpa using hj
      exact Or.inr (by show Right es e (p'.body j); rw [h3]; exact hr)
    · show p'.body j = _ ∨ Right es e' (p'.body j)
      rw [h4 j hji]; exact h.slot j e' hj
  · intro j e' hj
    have hji : j ≠ i := by intro hji; subst hji; rw [hs] at hj; simp at hj
    show p'.body j = _
    rw [h4 j hji]; exact h.second j e' hj
  · intro j hf e' hj
    by_cases hji : j = i
    · subst hji
      rw [hs] at hj
      obtain rfl : e = e' := by simpa using hj
      show Right es e (p'.body j); rw [h3]; exact hr
    · show Right es e' (p'.body j)
      rw [h4 j hji]; exact hf e' hj

/-- The recursive call does what it should for constants of lower rank. -/
def Calls (d : List (BitVec 8)) (er : Nat) (es : List Entry) (fuel : Nat) (rec : Rec) : Prop :=
  ∀ st i e s q, (slots es)[i]? = some (e, false) → rank e < fuel → Inv es st → On d er s q →
    ∃ st' s' q', rec st i s = some ((width e, st'), s') ∧ On d er s' q' ∧ Step es i e st st'

/-- Conclusion of the visit of one slot. -/
def Visits (d : List (BitVec 8)) (er : Nat) (es : List Entry) (i : Nat) (e : Entry) (st : St)
    (f : P (Nat × St)) (s : Stream) : Prop :=
  ∃ st' s' q', f s = some ((width e, st'), s') ∧ On d er s' q' ∧ Step es i e st st'

/-- The same for the part that runs when the slot is still null: it delivers the new pool. -/
def Fills (d : List (BitVec 8)) (er : Nat) (es : List Entry) (i : Nat) (st : St)
    (e : Entry) (f : P St) (s : Stream) : Prop :=
  ∃ st' s' q', f s = some (st', s') ∧ On d er s' q' ∧ Step es i e st st'

theorem when_null {d er es i e st f s q} (hinv : Inv es st)
    (hs : (slots es)[i]? = some (e, false)) (ho : e.isObject = true)
    (hne : ∀ v, Right es e (.raw v) → False) (hon : On d er s q)
    (hf : Fills d er es i st e f s) : Visits d er es i e st (whenNull st i f) s := by
  have hw : width e = 1 := by cases e <;> simp_all [width, Entry.wide, Entry.isObject]
  have hobj := hinv.object hs ho
  rcases hinv.slot i e hs with h0 | hr
  · rw [h0] at hobj
    obtain ⟨st', s', q', h1, h2, h3⟩ := hf
    refine ⟨st', s', q', ?_, h2, h3⟩
    show ((st.pool.object i).map fun a => (a, s)).bind _ = _
    rw [hobj]
    show (f s).bind _ = _
    rw [h1, hw]; rfl
  · cases hb : st.pool.body i with
    | raw v => rw [hb] at hr; exact (hne v hr).elim
    | obj o =>
      rw [hb] at hobj
      refine ⟨st, s, q, ?_, hon, ⟨hinv, hr, fun _ h => h, fun _ _ _ _ _ => rfl, fun _ => rfl, ?_⟩⟩
      · show ((st.pool.object i).map fun a => (a, s)).bind _ = _
        rw [hobj, hw]; rfl
      · intro _ hn; rw [hb] at hn; simp at hn

/-- The slot of a referenced constant, as the parser computes it. -/
theorem ref_slot {es : List Entry} (hl : Legal es) {m : Nat} {e : Entry}
    (h : constant es m = some e) :
    (slots es)[minus1 (BitVec.ofNat 16 m)]? = some (e, false) ∧ e ∈ es := by
  obtain ⟨h0, h1⟩ := constant_slot h
  have hlt := slot_lt h1
  have := hl.few
  rw [minus1_ofNat h0 (by omega)]
  exact ⟨h1, slot_mem h1⟩

theorem textAt_constant {es : List Entry} {m l} (h : textAt es m = some l) :
    constant es m = some (.utf8 l) := by
  unfold textAt at h
  split at h
  · rename_i l' h'; simp only [Option.some.injEq] at h; rw [h', h]
  · simp at h

theorem byteArray_of {es st} (h : Inv es st) {j : Nat} {l}
    (hs : (slots es)[j]? = some (.utf8 l, false)) (hf : Filled es st j) :
    st.byteArray j = some l := by
  have := hf _ hs _ (Means.utf8 l)
  unfold St.byteArray
  rw [h.object hs rfl, this]; rfl

theorem reference_of {es st} (h : Inv es st) {j : Nat} {e k c n t}
    (hs : (slots es)[j]? = some (e, false)) (ho : e.isObject = true) (hf : Filled es st j)
    (hm : Means es e (.obj (.ref k c n t))) : st.reference j = some (k, c, n, t) := by
  have := hf _ hs _ hm
  unfold St.reference
  rw [h.object hs ho, this]; rfl

theorem pair_of {es st} (h : Inv es st) {j : Nat} {e n t}
    (hs : (slots es)[j]? = some (e, false)) (ho : e.isObject = true) (hf : Filled es st j)
    (hm : Means es e (.obj (.pair n t))) : st.pair j = some (n, t) := by
  have := hf _ hs _ hm
  unfold St.pair
  rw [h.object hs ho, this]; rfl

/-- One recursive call on a referenced constant. -/
theorem call_ref {d er es fuel rec} (hc : Calls d er es fuel rec) (hl : Legal es) {m e st s q}
    (hm : constant es m = some e) (hr : rank e < fuel) (hni : isIndy e = false)
    (hinv : Inv es st) (hon : On d er s q) :
    ∃ st' s' q', rec st (minus1 (BitVec.ofNat 16 m)) s = some ((width e, st'), s') ∧
      On d er s' q' ∧ Inv es st' ∧ Filled es st' (minus1 (BitVec.ofNat 16 m)) ∧
      (∀ j, Filled es st j → Filled es st' j) ∧ st'.invocations = st.invocations ∧
      ∀ j e', (slots es)[j]? = some (e', false) → isIndy e' = true →
        st'.pool.body j = st.pool.body j := by
  obtain ⟨h1, _⟩ := ref_slot hl hm
  obtain ⟨st', s', q', h2, h3, h4⟩ := hc st _ e s q h1 hr hinv hon
  refine ⟨st', s', q', h2, h3, h4.inv, ?_, h4.keep, h4.quiet hni, ?_⟩
  · intro e' he'
    rw [h1] at he'
    obtain rfl : e = e' := by simpa using he'
    exact h4.here
  · intro j e' hj hi
    refine h4.indy j e' hj hi (fun hji => ?_)
    subst hji
    rw [h1] at hj
    obtain rfl : e = e' := by simpa using hj
    rw [hni] at hi; simp at hi

/-- Finish: write the object. -/
theorem finish {es : List Entry} {st st1 : St} {i : Nat} {e : Entry} {o : Obj} (hinv : Inv es st1)
    (hs : (slots es)[i]? = some (e, false)) (hr : Right es e (.obj o)) (hni : isIndy e = false)
    (hk : ∀ j, Filled es st j → Filled es st1 j)
    (hi : ∀ j e', (slots es)[j]? = some (e', false) → isIndy e' = true →
        st1.pool.body j = st.pool.body j)
    (hv : st1.invocations = st.invocations) :
    ∃ st', st1.set i o = some st' ∧ Step es i e st st' := by
  obtain ⟨st', h1, h2, h3, h4, h5, h6⟩ := set_slot hinv hs hr
  refine ⟨st', h1, ⟨h2, by rw [h3]; exact hr, fun j hj => h6 j (hk j hj), ?_,
    fun _ => h5.trans hv, fun h => by rw [hni] at h; simp at h⟩⟩
  intro j e' hj hie hji
  rw [h4 j hji]; exact hi j e' hj hie

theorem bind_eq {α β : Type} {f : P α} {g : α → P β} {s s' : Stream} {v : α}
    (h : f s = some (v, s')) : (f >>= g) s = g v s' := by
  show (f s).bind (fun r => g r.1 r.2) = _
  rw [h]; rfl

theorem lift_eq {α : Type} {o : Option α} {v : α} (h : o = some v) (s : Stream) :
    lift o s = some (v, s) := by
  rw [h]; rfl

/-! One lemma for each kind of constant. -/

theorem fill_utf8 {d er es i st l s q} (hl : Legal es) (hinv : Inv es st)
    (hs : (slots es)[i]? = some (Entry.utf8 l, false)) (hon : On d er s q)
    (hhas : Has d q (Entry.utf8 l).payload) :
    Fills d er es i st (.utf8 l) (entryUtf8 st i) s := by
  obtain ⟨s1, e1, o1⟩ := reads_read2 l.length d er s q hon hhas.left
  have hfit : l.length < 65536 := hl.fits _ (slot_mem hs)
  obtain ⟨s2, e2, o2⟩ := reads_bytes ((BitVec.ofNat 16 l.length).setWidth 32) l
    (by simp only [BitVec.toNat_setWidth, BitVec.toNat_ofNat]; omega) d er s1 _ o1 hhas.right
  obtain ⟨st2, w1, step⟩ := finish hinv hs (o := .bytes l)
    (fun w hw => by cases hw; rfl) rfl (st := st) (fun _ h => h) (fun _ _ _ _ => rfl) rfl
  exact ⟨st2, s2, _, by rw [entryUtf8, bind_eq e1, bind_eq e2, lift_eq w1], o2, step⟩

theorem fill_cls {d er es fuel rec i st m s q} (hl : Legal es) (hc : Calls d er es fuel rec)
    (hinv : Inv es st) (hs : (slots es)[i]? = some (Entry.cls m, false)) (hon : On d er s q)
    (hhas : Has d q (Entry.cls m).payload) (hr : 1 < fuel + 1) :
    Fills d er es i st (.cls m) (entryClass rec st i) s := by
  obtain ⟨w, hw⟩ := hl.means _ (slot_mem hs)
  cases hw with
  | cls ht =>
  rename_i l
  obtain ⟨s1, e1, o1⟩ := reads_read2 m d er s q hon hhas
  have hcon := textAt_constant ht
  obtain ⟨st1, s2, q2, c1, o2, inv1, f1, k1, v1, x1⟩ :=
    call_ref hc hl hcon (by simp only [rank]; omega) rfl hinv o1
  have hb := byteArray_of inv1 (ref_slot hl hcon).1 f1
  obtain ⟨st2, w1, step⟩ := finish inv1 hs (o := .ref 0 none l none)
    (fun w hw => by cases hw with | cls h => rw [ht] at h; cases h; rfl) rfl k1 x1 v1
  refine ⟨st2, s2, q2, ?_, o2, step⟩
  rw [entryClass, bind_eq e1, bind_eq c1, bind_eq (lift_eq hb _), lift_eq w1]

theorem fill_string {d er es fuel rec i st m s q} (debug : Bool) (hl : Legal es)
    (hc : Calls d er es fuel rec)
    (hinv : Inv es st) (hs : (slots es)[i]? = some (Entry.string m, false)) (hon : On d er s q)
    (hhas : Has d q (Entry.string m).payload) (hr : 1 < fuel + 1) :
    Fills d er es i st (.string m) (entryString debug rec st i) s := by
  obtain ⟨w, hw⟩ := hl.means _ (slot_mem hs)
  cases hw with
  | string ht =>
  rename_i us
  obtain ⟨s1, e1, o1⟩ := reads_read2 m d er s q hon hhas
  have hcon := textAt_constant ht
  obtain ⟨st1, s2, q2, c1, o2, inv1, f1, k1, v1, x1⟩ :=
    call_ref hc hl hcon (by simp only [rank]; omega) rfl hinv o1
  have hb := byteArray_of inv1 (ref_slot hl hcon).1 f1
  have hfit : (us.flatMap Utf8.classFileUnit).length < 65536 :=
    hl.fits _ (ref_slot hl hcon).2
  obtain ⟨p, hp, hu⟩ := Utf8.class_file_text debug us (by omega)
  obtain ⟨st2, w1, step⟩ := finish inv1 hs (o := .str us)
    (fun w hw => by
      cases hw with
      | string h =>
        rename_i us'
        rw [ht] at h
        obtain ⟨p', hp', hu'⟩ := Utf8.class_file_text debug us' (by
          rw [← Option.some.inj h]; omega)
        rw [← Option.some.inj h, hp] at hp'
        cases hp'
        rw [← hu, ← hu']) rfl k1 x1 v1
  refine ⟨st2, s2, q2, ?_, o2, step⟩
  rw [entryString, bind_eq e1, bind_eq c1, bind_eq (lift_eq hb _), hp]
  simp only [hu]
  rw [lift_eq w1]

theorem fill_methodType {d er es fuel rec i st m s q} (hl : Legal es) (hc : Calls d er es fuel rec)
    (hinv : Inv es st) (hs : (slots es)[i]? = some (Entry.methodType m, false)) (hon : On d er s q)
    (hhas : Has d q (Entry.methodType m).payload) (hr : 1 < fuel + 1) :
    Fills d er es i st (.methodType m) (entryMethodType rec st i) s := by
  obtain ⟨w, hw⟩ := hl.means _ (slot_mem hs)
  cases hw with
  | methodType ht =>
  rename_i l
  obtain ⟨s1, e1, o1⟩ := reads_read2 m d er s q hon hhas
  have hcon := textAt_constant ht
  obtain ⟨st1, s2, q2, c1, o2, inv1, f1, k1, v1, x1⟩ :=
    call_ref hc hl hcon (by simp only [rank]; omega) rfl hinv o1
  have hsl := (ref_slot hl hcon).1
  have hb : st1.pool.object (minus1 (BitVec.ofNat 16 m)) = some (some (.bytes l)) := by
    rw [inv1.object hsl rfl, f1 _ hsl _ (Means.utf8 l)]
  obtain ⟨st2, w1, step⟩ := finish inv1 hs (o := .bytes l)
    (fun w hw => by cases hw with | methodType h => rw [ht] at h; cases h; rfl) rfl k1 x1 v1
  refine ⟨st2, s2, q2, ?_, o2, step⟩
  rw [entryMethodType, bind_eq e1, bind_eq c1, bind_eq (lift_eq hb _)]
  exact lift_eq w1 _

theorem fill_nameAndType {d er es fuel rec i st a b s q} (hl : Legal es)
    (hc : Calls d er es fuel rec) (hinv : Inv es st)
    (hs : (slots es)[i]? = some (Entry.nameAndType a b, false)) (hon : On d er s q)
    (hhas : Has d q (Entry.nameAndType a b).payload) (hr : 1 < fuel + 1) :
    Fills d er es i st (.nameAndType a b) (entryNameAndType rec st i) s := by
  obtain ⟨w, hw⟩ := hl.means _ (slot_mem hs)
  cases hw with
  | nameAndType hx hy =>
  rename_i x y
  obtain ⟨s1, e1, o1⟩ := reads_read2 a d er s q hon hhas.left
  obtain ⟨s2, e2, o2⟩ := reads_read2 b d er s1 _ o1 hhas.right
  have hxc := textAt_constant hx
  have hyc := textAt_constant hy
  obtain ⟨st1, s3, q3, c1, o3, inv1, f1, k1, v1, x1⟩ :=
    call_ref hc hl hxc (by simp only [rank]; omega) rfl hinv o2
  obtain ⟨st2, s4, q4, c2, o4, inv2, f2, k2, v2, x2⟩ :=
    call_ref hc hl hyc (by simp only [rank]; omega) rfl inv1 o3
  have hb1 := byteArray_of inv2 (ref_slot hl hxc).1 (k2 _ f1)
  have hb2 := byteArray_of inv2 (ref_slot hl hyc).1 f2
  obtain ⟨st3, w1, step⟩ := finish (st := st) inv2 hs (o := .pair x y)
    (fun w hw => by
      cases hw with
      | nameAndType h1 h2 => rw [hx] at h1; rw [hy] at h2; cases h1; cases h2; rfl) rfl
    (fun j h => k2 j (k1 j h)) (fun j e' h1 h2 => (x2 j e' h1 h2).trans (x1 j e' h1 h2))
    (v2.trans v1)
  refine ⟨st3, s4, q4, ?_, o4, step⟩
  rw [entryNameAndType, bind_eq e1, bind_eq e2, bind_eq c1, bind_eq c2, bind_eq (lift_eq hb1 _),
    bind_eq (lift_eq hb2 _), lift_eq w1]

theorem memberOf_parts {es c nt x n t} (h : memberOf es c nt = some (x, n, t)) :
    classAt es c = some x ∧ nameTypeAt es nt = some (n, t) := by
  unfold memberOf at h
  split at h
  · rename_i h1 h2
    simp only [Option.some.injEq, Prod.mk.injEq] at h
    obtain ⟨rfl, rfl⟩ := h
    exact ⟨h1, h2⟩
  · simp at h

theorem classAt_constant {es c x} (h : classAt es c = some x) :
    ∃ m, constant es c = some (.cls m) ∧ textAt es m = some x := by
  unfold classAt at h
  split at h
  · rename_i m hm; exact ⟨m, hm, h⟩
  · simp at h

theorem nameTypeAt_constant {es nt n t} (h : nameTypeAt es nt = some (n, t)) :
    ∃ a b, constant es nt = some (.nameAndType a b) ∧ textAt es a = some n ∧ textAt es b = some t := by
  unfold nameTypeAt at h
  split at h
  · rename_i a b hm
    split at h
    · rename_i x y h1 h2
      simp only [Option.some.injEq, Prod.mk.injEq] at h
      obtain ⟨rfl, rfl⟩ := h
      exact ⟨a, b, hm, h1, h2⟩
    · simp at h
  · simp at h

/-- Member constants: the three kinds are read alike. -/
theorem fill_member {d er es fuel rec i st c nt s q} (hl : Legal es)
    (hc : Calls d er es fuel rec) (hinv : Inv es st) {e : Entry}
    (hs : (slots es)[i]? = some (e, false)) (hon : On d er s q)
    (hhas : Has d q (be2 c ++ be2 nt)) (hr : 2 < fuel + 1) (hni : isIndy e = false) {x n t}
    (hm : memberOf es c nt = some (x, n, t))
    (hR : Right es e (.obj (.ref 0 (some x) n (some t)))) :
    Fills d er es i st e (entryMember rec st i) s := by
  obtain ⟨hca, hnt⟩ := memberOf_parts hm
  obtain ⟨m, hcc, htx⟩ := classAt_constant hca
  obtain ⟨a, b, hnc, hta, htb⟩ := nameTypeAt_constant hnt
  obtain ⟨s1, e1, o1⟩ := reads_read2 c d er s q hon hhas.left
  obtain ⟨s2, e2, o2⟩ := reads_read2 nt d er s1 _ o1 hhas.right
  obtain ⟨st1, s3, q3, c1, o3, inv1, f1, k1, v1, x1⟩ :=
    call_ref hc hl hcc (by simp only [rank]; omega) rfl hinv o2
  obtain ⟨st2, s4, q4, c2, o4, inv2, f2, k2, v2, x2⟩ :=
    call_ref hc hl hnc (by simp only [rank]; omega) rfl inv1 o3
  have hb1 := reference_of inv2 (ref_slot hl hcc).1 rfl (k2 _ f1) (Means.cls htx)
  have hb2 := pair_of inv2 (ref_slot hl hnc).1 rfl f2 (Means.nameAndType hta htb)
  obtain ⟨st3, w1, step⟩ := finish (st := st) inv2 hs hR hni
    (fun j h => k2 j (k1 j h)) (fun j e' h1 h2 => (x2 j e' h1 h2).trans (x1 j e' h1 h2))
    (v2.trans v1)
  refine ⟨st3, s4, q4, ?_, o4, step⟩
  rw [entryMember, bind_eq e1, bind_eq e2, bind_eq c1, bind_eq c2, bind_eq (lift_eq hb1 _),
    bind_eq (lift_eq hb2 _), lift_eq w1]

theorem memberAt_constant {es r x n t} (h : memberAt es r = some (x, n, t)) :
    ∃ e c nt, constant es r = some e ∧ memberOf es c nt = some (x, n, t) ∧
      e.isObject = true ∧ isIndy e = false ∧ rank e = 2 ∧
      Means es e (.obj (.ref 0 (some x) n (some t))) := by
  unfold memberAt at h
  split at h
  · rename_i c nt hm; exact ⟨_, c, nt, hm, h, rfl, rfl, rfl, Means.field h⟩
  · rename_i c nt hm; exact ⟨_, c, nt, hm, h, rfl, rfl, rfl, Means.method h⟩
  · rename_i c nt hm; exact ⟨_, c, nt, hm, h, rfl, rfl, rfl, Means.interfaceMethod h⟩
  · simp at h

theorem fill_methodHandle {d er es fuel rec i st k r s q} (hl : Legal es)
    (hc : Calls d er es fuel rec) (hinv : Inv es st)
    (hs : (slots es)[i]? = some (Entry.methodHandle k r, false)) (hon : On d er s q)
    (hhas : Has d q (Entry.methodHandle k r).payload) (hr : 3 < fuel + 1) :
    Fills d er es i st (.methodHandle k r) (entryMethodHandle rec st i) s := by
  obtain ⟨w, hw⟩ := hl.means _ (slot_mem hs)
  have hfit := hl.fits _ (slot_mem hs)
  cases hw with
  | methodHandle hm =>
  rename_i x n t
  obtain ⟨e, c, nt, hcon, hmo, ho, hni, hrk, hme⟩ := memberAt_constant hm
  obtain ⟨s1, e1, o1⟩ := reads_read1 k d er s q hon hhas.left
  obtain ⟨s2, e2, o2⟩ := reads_read2 r d er s1 _ o1 hhas.right
  obtain ⟨st1, s3, q3, c1, o3, inv1, f1, k1, v1, x1⟩ :=
    call_ref hc hl hcon (by omega) hni hinv o2
  have hb := reference_of inv1 (ref_slot hl hcon).1 ho f1 hme
  have hk : (BitVec.ofNat 8 k).toNat = k := by
    simp only [Entry.Fits] at hfit
    simp only [BitVec.toNat_ofNat]; omega
  obtain ⟨st3, w1, step⟩ := finish (st := st) inv1 hs (o := .ref k (some x) n (some t))
    (fun w hw => by cases hw with | methodHandle h => rw [hm] at h; cases h; rfl) rfl k1 x1 v1
  refine ⟨st3, s3, q3, ?_, o3, step⟩
  rw [entryMethodHandle, bind_eq e1, bind_eq e2, bind_eq c1, bind_eq (lift_eq hb _), hk,
    lift_eq w1]

theorem fill_invokeDynamic {d er es fuel rec i st b nt s q} (hl : Legal es)
    (hc : Calls d er es fuel rec) (hinv : Inv es st)
    (hs : (slots es)[i]? = some (Entry.invokeDynamic b nt, false)) (hon : On d er s q)
    (hhas : Has d q (Entry.invokeDynamic b nt).payload) (hr : 2 < fuel + 1) :
    Fills d er es i st (.invokeDynamic b nt) (entryInvokeDynamic rec st i) s := by
  obtain ⟨w, hw⟩ := hl.means _ (slot_mem hs)
  have hfit := hl.fits _ (slot_mem hs)
  cases hw with
  | invokeDynamic hnt htext hok =>
  rename_i n t params ret
  obtain ⟨a, b', hnc, hta, htb⟩ := nameTypeAt_constant hnt
  obtain ⟨s1, e1, o1⟩ := reads_read2 b d er s q hon hhas.left
  obtain ⟨s2, e2, o2⟩ := reads_read2 nt d er s1 _ o1 hhas.right
  obtain ⟨st1, s3, q3, c1, o3, inv1, f1, k1, v1, x1⟩ :=
    call_ref hc hl hnc (by simp only [rank]; omega) rfl hinv o2
  have hb := pair_of inv1 (ref_slot hl hnc).1 rfl f1 (Means.nameAndType hta htb)
  have hscan : Descriptor.scanMethodSpec (t ++ [0#8]) true =
      some (params.length, Descriptor.slots params, Descriptor.kind ret) := by
    rw [htext, Descriptor.scan_correct params ret hok true]; rfl
  have hbn : (BitVec.ofNat 16 b).toNat = b := by
    simp only [Entry.Fits] at hfit
    simp only [BitVec.toNat_ofNat]; omega
  have hR : Right es (.invokeDynamic b nt) (.obj (.invocation b n t params.length
      (Descriptor.slots params) (Descriptor.kind ret))) := by
    intro w hw
    cases hw with
    | invokeDynamic h1 h2 h3 =>
      rename_i n' t' params' ret'
      rw [hnt] at h1
      obtain ⟨rfl, rfl⟩ : n = n' ∧ t = t' := by simpa using h1
      have h4 := Descriptor.scan_correct params' ret' h3 true
      rw [← h2, hscan] at h4
      simp only [if_true, Nat.add_zero, Option.some.injEq, Prod.mk.injEq] at h4
      obtain ⟨h5, h6, h7⟩ := h4
      rw [h5, h6, h7]
  obtain ⟨st3, w1, w2, w3, w4, w5, w6⟩ := set_slot inv1 hs hR
  refine ⟨{ st3 with invocations := st3.invocations ++ [i] }, s3, q3, ?_, o3,
    ⟨⟨w2.masks, w2.slot, w2.second⟩, ?_, ?_, ?_, ?_, ?_⟩⟩
  · rw [entryInvokeDynamic, bind_eq e1, bind_eq e2, bind_eq c1, bind_eq (lift_eq hb _),
      bind_eq (lift_eq hscan _), hbn, bind_eq (lift_eq w1 _)]
    rfl
  · show Right es _ (st3.pool.body i)
    rw [w3]; exact hR
  · intro j hj; exact w6 j (k1 j hj)
  · intro j e' hj hie hji
    show st3.pool.body j = _
    rw [w4 j hji]; exact x1 j e' hj hie
  · intro h; simp [isIndy] at h
  · intro _ _
    show st3.invocations ++ [i] = _
    rw [w5, v1]

end Avian.ClassFile
