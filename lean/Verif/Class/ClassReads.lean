import Verif.Class.ClassSource

/-
Which parser reads which part of a written class file.
-/
namespace Avian.ClassFile
open Avian.Stream

/-- The pool after reading, as far as the rest of the file needs it. -/
structure Holds (es : List Entry) (st : St) : Prop where
  few : (slots es).length < 65535
  means : ∀ n e w, constant es n = some e → Means es e w → st.pool.body (n - 1) = w
  isObject : ∀ n e, constant es n = some e → st.pool.isObject (n - 1) = some e.isObject

theorem constant_lt {es : List Entry} {n : Nat} {e : Entry} (hf : (slots es).length < 65535)
    (h : constant es n = some e) : n ≠ 0 ∧ n < 65536 := by
  obtain ⟨h0, h1⟩ := constant_slot h
  have := slot_lt h1
  exact ⟨h0, by omega⟩

theorem Holds.object {es st} (h : Holds es st) {n e o} (hc : constant es n = some e)
    (ho : e.isObject = true) (hm : Means es e (.obj o)) : st.pool.object (n - 1) = some (some o) := by
  unfold Pool.object
  rw [h.isObject n e hc, ho, h.means n e _ hc hm]; rfl

theorem Holds.byteArray {es st} (h : Holds es st) {n l} (ht : textAt es n = some l) :
    st.byteArray (n - 1) = some l := by
  unfold St.byteArray
  rw [h.object (textAt_constant ht) rfl (Means.utf8 l)]; rfl

theorem Holds.reference {es st} (h : Holds es st) {n l} (ht : classAt es n = some l) :
    st.reference (n - 1) = some (0, none, l, none) := by
  obtain ⟨m, h1, h2⟩ := classAt_constant ht
  unfold St.reference
  rw [h.object h1 rfl (Means.cls h2)]; rfl

theorem Holds.pair {es st} (h : Holds es st) {n x y} (ht : nameTypeAt es n = some (x, y)) :
    st.pair (n - 1) = some (x, y) := by
  obtain ⟨a, b, h1, h2, h3⟩ := nameTypeAt_constant ht
  unfold St.pair
  rw [h.object h1 rfl (Means.nameAndType h2 h3)]; rfl

theorem text_lt {es : List Entry} (hf : (slots es).length < 65535) {n l}
    (h : textAt es n = some l) : n ≠ 0 ∧ n < 65536 := constant_lt hf (textAt_constant h)

theorem class_lt {es : List Entry} (hf : (slots es).length < 65535) {n l}
    (h : classAt es n = some l) : n ≠ 0 ∧ n < 65536 := by
  obtain ⟨m, h1, _⟩ := classAt_constant h
  exact constant_lt hf h1

theorem nameType_lt {es : List Entry} (hf : (slots es).length < 65535) {n p}
    (h : nameTypeAt es n = some p) : n ≠ 0 ∧ n < 65536 := by
  obtain ⟨a, b, h1, _⟩ := nameTypeAt_constant (n := p.1) (t := p.2) h
  exact constant_lt hf h1

theorem Holds.byteArray1 {es st} (h : Holds es st) {n l} (ht : textAt es n = some l) :
    st.byteArray (minus1 (BitVec.ofNat 16 n)) = some l := by
  obtain ⟨h0, h1⟩ := text_lt h.few ht
  rw [minus1_ofNat h0 h1]; exact h.byteArray ht

theorem Holds.reference1 {es st} (h : Holds es st) {n l} (ht : classAt es n = some l) :
    st.reference (minus1 (BitVec.ofNat 16 n)) = some (0, none, l, none) := by
  obtain ⟨h0, h1⟩ := class_lt h.few ht
  rw [minus1_ofNat h0 h1]; exact h.reference ht

theorem slot16_ofNat {n : Nat} (h0 : n ≠ 0) (h : n < 32768) :
    slot16 (BitVec.ofNat 16 n) = n - 1 := by
  unfold slot16
  have h1 : (BitVec.ofNat 16 n).msb = false := by
    rw [BitVec.msb_eq_false_iff_two_mul_lt]; simp; omega
  rw [BitVec.signExtend_eq_setWidth_of_msb_false h1]
  exact minus1_ofNat h0 (by omega)

theorem toNat16 {n : Nat} (h : n < 65536) : (BitVec.ofNat 16 n).toNat = n := by
  simp; omega

theorem toNat32 {n : Nat} (h : n < 2 ^ 32) : (BitVec.ofNat 32 n).toNat = n := by
  simp; omega

theorem ofNat16_zero {n : Nat} (h : n < 65536) : BitVec.ofNat 16 n = 0#16 ↔ n = 0 := by
  constructor
  · intro h1
    have := congrArg BitVec.toNat h1
    rw [toNat16 h] at this; simpa using this
  · intro h1; subst h1; rfl

/-! ### Loops -/

/-- A loop that updates something. -/
theorem reads_fold {α β : Type} {step : β → P β} {bytes : α → Bytes} {upd : β → α → β}
    (xs : List α) (h : ∀ x ∈ xs, ∀ b, Reads (step b) (bytes x) (upd b x)) :
    ∀ b, Reads (times xs.length step b) (xs.flatMap bytes) (xs.foldl upd b) := by
  induction xs with
  | nil => intro b; exact Reads.pure b
  | cons x xs ih =>
    intro b
    exact Reads.bind (h x (List.mem_cons_self ..) b)
      (ih (fun y hy => h y (List.mem_cons_of_mem _ hy)) _)

theorem foldl_append_map {α β : Type} (f : α → β) (xs : List α) :
    ∀ acc : List β, xs.foldl (fun b x => b ++ [f x]) acc = acc ++ xs.map f := by
  induction xs with
  | nil => intro acc; simp
  | cons x xs ih => intro acc; simp [ih]

/-- A loop that collects a list. -/
theorem reads_map {α β : Type} {step : List β → P (List β)} {bytes : α → Bytes} {f : α → β}
    (xs : List α) (h : ∀ x ∈ xs, ∀ acc, Reads (step acc) (bytes x) (acc ++ [f x])) :
    Reads (times xs.length step []) (xs.flatMap bytes) (xs.map f) := by
  have := reads_fold (upd := fun b x => b ++ [f x]) xs h []
  rwa [foldl_append_map, List.nil_append] at this

/-- A counted loop that updates something. -/
theorem reads_table {α β : Type} {step : β → P β} {bytes : α → Bytes} {upd : β → α → β}
    (xs : List α) (hn : xs.length < 65536)
    (h : ∀ x ∈ xs, ∀ b, Reads (step b) (bytes x) (upd b x)) (b : β) :
    Reads (read2 >>= fun n => times n.toNat step b) (table bytes xs) (xs.foldl upd b) := by
  refine Reads.bind (reads_read2 _) ?_
  rw [toNat16 hn]
  exact reads_fold xs h b

theorem reads_tableMap {α β : Type} {step : List β → P (List β)} {bytes : α → Bytes} {f : α → β}
    (xs : List α) (hn : xs.length < 65536)
    (h : ∀ x ∈ xs, ∀ acc, Reads (step acc) (bytes x) (acc ++ [f x])) :
    Reads (read2 >>= fun n => times n.toNat step []) (table bytes xs) (xs.map f) := by
  refine Reads.bind (reads_read2 _) ?_
  rw [toNat16 hn]
  exact reads_map xs h

/-- A table followed by something. -/
theorem Reads.after {α β γ : Type} {f : P α} {g : α → P β} {h : β → P γ}
    {l m : Bytes} {v : β} {w : γ} (h1 : Reads (f >>= g) l v) (h2 : Reads (h v) m w) :
    Reads (f >>= fun a => g a >>= h) (l ++ m) w := by
  have := Reads.bind h1 h2
  intro d e s p hon hhas
  obtain ⟨s', e1, o1⟩ := this d e s p hon hhas
  refine ⟨s', ?_, o1⟩
  rw [← e1]
  show (f s).bind (fun r => (g r.1 r.2).bind fun r => h r.1 r.2) =
    ((f s).bind (fun r => g r.1 r.2)).bind fun r => h r.1 r.2
  cases f s <;> rfl

theorem Reads.afterMap {α β γ : Type} {f : P α} {g : α → P β} {h : β → P γ}
    {l : Bytes} {v : β} {w : γ} (h1 : Reads (f >>= g) l v) (h2 : Reads (h v) [] w) :
    Reads (f >>= fun a => g a >>= h) l w := by
  have := Reads.after h1 h2
  rwa [List.append_nil] at this

/-! ### The last one wins -/

theorem last_nil {α β : Type} (f : α → Option β) : last f [] = none := rfl

theorem last_cons {α β : Type} (f : α → Option β) (x : α) (xs : List α) :
    last f (x :: xs) = (last f xs).or (f x) := by
  unfold last
  rw [List.filterMap_cons]
  cases hf : f x with
  | none => simp
  | some b =>
    simp only [List.getLast?_cons]
    cases (List.filterMap f xs).getLast? <;> simp

theorem foldl_last {α β γ : Type} (upd : β → α → β) (c : β → Option γ) (f : α → Option γ)
    (h : ∀ b x, c (upd b x) = (f x).or (c b)) (xs : List α) :
    ∀ b, c (xs.foldl upd b) = (last f xs).or (c b) := by
  induction xs with
  | nil => intro b; simp [last_nil]
  | cons x xs ih =>
    intro b
    rw [List.foldl_cons, ih, last_cons, h]
    cases last f xs <;> simp

/-! ### Attribute heads -/

theorem takeWhile_all {l : Bytes} (h : 0#8 ∉ l) : l.takeWhile (fun b => b ≠ 0#8) = l := by
  induction l with
  | nil => rfl
  | cons b l ih =>
    have hb : b ≠ 0#8 := fun h1 => h (h1 ▸ List.mem_cons_self ..)
    rw [List.takeWhile_cons_of_pos (by simpa using hb), ih (fun h1 => h (List.mem_cons_of_mem _ h1))]

theorem nameIs_unknown {known : List String} {name : Bytes} (h : Unknown known name) {k : String}
    (hk : k ∈ known) : nameIs k name = false := by
  unfold nameIs
  rw [takeWhile_all h.1]
  exact decide_eq_false (h.2 k hk)

theorem reads_head {es st} (h : Holds es st) {num : Nat} {name : Bytes} (len : Nat)
    (hn : textAt es num = some name) :
    Reads (readAttributeHead st) (be2 num ++ be4 len) (name, BitVec.ofNat 32 len) := by
  unfold readAttributeHead readText
  refine Reads.bind ?_ (Reads.map (reads_read4 len) (Reads.pure _))
  exact Reads.map (reads_read2 num) (Reads.lift (h.byteArray1 hn))

/-- An attribute: its head, then something chosen by name and length. -/
theorem reads_attr {es st} {β : Type} (h : Holds es st) {num : Nat} {name content : Bytes}
    {k : List (BitVec 8) × BitVec 32 → P β} {v : β} (hn : textAt es num = some name)
    (hk : Reads (k (name, BitVec.ofNat 32 content.length)) content v) :
    Reads (readAttributeHead st >>= k) (attrBytes num content) v :=
  Reads.bind (reads_head h _ hn) hk

theorem reads_object {es st} (h : Holds es st) {n l} (hn : textAt es n = some l) :
    Reads (readObject st) (be2 n) (.bytes (text es n)) := by
  unfold readObject
  obtain ⟨h0, h1⟩ := text_lt h.few hn
  refine Reads.map (reads_read2 n) ?_
  rw [minus1_ofNat h0 h1]
  refine Reads.seq (Reads.lift (h.object (textAt_constant hn) rfl (Means.utf8 l))) ?_
  have : text es n = l := by unfold text; rw [hn]; rfl
  rw [this]
  exact Reads.pure _

theorem reads_text {es st} (h : Holds es st) {n l} (hn : textAt es n = some l) :
    Reads (readText st) (be2 n) (text es n) := by
  have : text es n = l := by unfold text; rw [hn]; rfl
  rw [this]
  exact Reads.map (reads_read2 n) (Reads.lift (h.byteArray1 hn))

theorem reads_content {b : Bytes} (h : b.length < 2 ^ 32) :
    Reads (readBytes (BitVec.ofNat 32 b.length)) b b := reads_bytes _ _ (toNat32 h).symm

theorem skips_content {b : Bytes} (h : b.length < 2 ^ 32) :
    Reads (skip (BitVec.ofNat 32 b.length)) b () := reads_skip _ _ (toNat32 h).symm

/-- Choose the branch of a known attribute name. -/
local macro "pick" : tactic => `(tactic|
  ((repeat (split; next hh => dsimp only at hh; exact absurd hh (by decide +kernel)))
   split
   rotate_left
   next hh => dsimp only at hh; exact absurd (by decide +kernel) hh))

/-! ### Fields -/

def FieldAcc.upd (es : List Entry) (a : FieldAcc) : Nat × FieldAttr → FieldAcc
  | (_, .constantValue n) => { a with value := n }
  | (_, .signature n) => { a with signature := some (.bytes (text es n)) }
  | (_, .annotations b) => { a with annotations := some b }
  | (_, .other _ _) => a

theorem reads_fieldAttr {es st} (h : Holds es st) (x : Nat × FieldAttr)
    (hn : textAt es x.1 = some x.2.name) (hok : x.2.Ok es) (a : FieldAcc) :
    Reads (fieldAttribute st a) (attrBytes x.1 x.2.content) (a.upd es x) := by
  obtain ⟨num, x⟩ := x
  cases x
  case constantValue n =>
    refine reads_attr (name := ascii "ConstantValue") (content := be2 n) h hn ?_
    pick
    refine Reads.map (reads_read2 n) ?_
    rw [toNat16 hok]
    exact Reads.pure _
  case signature n =>
    refine reads_attr (name := ascii "Signature") (content := be2 n) h hn ?_
    obtain ⟨l, hl⟩ := hok
    pick
    exact Reads.map (reads_object h hl) (Reads.pure _)
  case annotations b =>
    refine reads_attr (name := ascii "RuntimeVisibleAnnotations") (content := b) h hn ?_
    pick
    exact Reads.map (reads_content hok) (Reads.pure _)
  case other n b =>
    refine reads_attr (name := n) (content := b) h hn ?_
    have hu := hok.2
    simp only [nameIs_unknown hu (show "ConstantValue" ∈ _ by simp),
      nameIs_unknown hu (show "Signature" ∈ _ by simp),
      nameIs_unknown hu (show "RuntimeVisibleAnnotations" ∈ _ by simp), Bool.false_eq_true, if_false]
    exact Reads.map (skips_content hok.1) (Reads.pure _)

theorem fieldCode_type (t : Descriptor.Ty) :
    Descriptor.fieldCode (firstByte t.text) = some (Descriptor.kind (some t)) := by
  obtain ⟨c, r, h1, h2⟩ := Descriptor.fieldCode_ret (some t)
  have h3 : t.text = c :: r := h1
  rw [h3]; exact h2

theorem reads_field {es st} (h : Holds es st) (f : SrcField) (hok : f.Ok es)
    (acc : List FieldInfo) :
    Reads (parseField st acc) f.bytes (acc ++ [f.info es]) := by
  obtain ⟨nm, hnm⟩ := hok.name
  refine Reads.bind (reads_read2 _) ?_
  refine Reads.bind (reads_read2 _) ?_
  refine Reads.bind (reads_read2 _) ?_
  refine Reads.seq (Reads.lift (h.byteArray1 hok.spec)) ?_
  refine Reads.seq (Reads.lift (fieldCode_type _)) ?_
  refine Reads.afterMap (reads_table f.attrs hok.count
    (fun x hx => reads_fieldAttr h x (hok.attrs x hx).1 (hok.attrs x hx).2) _) ?_
  refine Reads.seq (Reads.lift (h.byteArray1 hnm)) ?_
  have e1 : (f.attrs.foldl (FieldAcc.upd es) ⟨0, none, none⟩).signature = (f.info es).signature := by
    rw [foldl_last (FieldAcc.upd es) FieldAcc.signature _ ?_ f.attrs]
    · simp [SrcField.info]; rfl
    · rintro b ⟨_, x⟩; cases x <;> simp [FieldAcc.upd]
  have e2 : (f.attrs.foldl (FieldAcc.upd es) ⟨0, none, none⟩).annotations
      = (f.info es).annotations := by
    rw [foldl_last (FieldAcc.upd es) FieldAcc.annotations _ ?_ f.attrs]
    · simp [SrcField.info]; rfl
    · rintro b ⟨_, x⟩; cases x <;> simp [FieldAcc.upd]
  have e3 : (f.attrs.foldl (FieldAcc.upd es) ⟨0, none, none⟩).value = (f.info es).value := by
    have := foldl_last (FieldAcc.upd es) (fun a => some a.value)
      (fun a : Nat × FieldAttr => match a.2 with | .constantValue n => some n | _ => none)
      (by rintro b ⟨_, x⟩; cases x <;> simp [FieldAcc.upd]) f.attrs ⟨0, none, none⟩
    simp only [SrcField.info]
    cases hh : last (fun a : Nat × FieldAttr => match a.2 with | .constantValue n => some n | _ => none) f.attrs
    · rw [hh] at this; simpa using this
    · rw [hh] at this; simpa using this
  rw [e1, e2, e3, toNat16 hok.flags]
  have e4 : text es f.name = nm := by unfold text; rw [hnm]; rfl
  rw [show f.info es = ⟨f.flags, nm, f.type.text, Descriptor.kind (some f.type),
    (f.info es).value, (f.info es).signature, (f.info es).annotations⟩ by
      rw [← e4]; rfl]
  exact Reads.pure _

theorem reads_fields {es st} (h : Holds es st) (fs : List SrcField) (hn : fs.length < 65536)
    (hok : ∀ f ∈ fs, f.Ok es) :
    Reads (parseFields st) (table SrcField.bytes fs) (fs.map (SrcField.info es)) :=
  reads_tableMap fs hn fun f hf acc => reads_field h f (hok f hf) acc

/-! ### Code -/

theorem reads_line (p : Nat × Nat) (h : p.1 < 65536 ∧ p.2 < 65536) (acc : List (Nat × Nat)) :
    Reads (parseLine acc) (lineBytes p) (acc ++ [p]) := by
  refine Reads.bind (reads_read2 _) ?_
  refine Reads.map (reads_read2 _) ?_
  rw [toNat16 h.1, toNat16 h.2]
  exact Reads.pure _

theorem reads_handler (x : Handler) (h : x.Ok) (acc : List Handler) :
    Reads (parseHandler acc) x.bytes (acc ++ [x]) := by
  obtain ⟨h1, h2, h3, h4⟩ := h
  refine Reads.bind (reads_read2 _) ?_
  refine Reads.bind (reads_read2 _) ?_
  refine Reads.bind (reads_read2 _) ?_
  refine Reads.map (reads_read2 _) ?_
  rw [toNat16 h1, toNat16 h2, toNat16 h3, toNat16 h4]
  exact Reads.pure _

def linesUpd (a : Option (List (Nat × Nat))) : Nat × CodeAttr → Option (List (Nat × Nat))
  | (_, .lines l) => some l
  | (_, .other _ _) => a

theorem reads_codeAttr {es st} (h : Holds es st) (x : Nat × CodeAttr)
    (hn : textAt es x.1 = some x.2.name) (hok : x.2.Ok) (a : Option (List (Nat × Nat))) :
    Reads (codeAttribute st a) (attrBytes x.1 x.2.content) (linesUpd a x) := by
  obtain ⟨num, x⟩ := x
  cases x
  case lines l =>
    refine reads_attr (name := ascii "LineNumberTable") (content := table lineBytes l) h hn ?_
    pick
    refine Reads.afterMap (reads_tableMap (f := id) l hok.1 fun p hp acc =>
      reads_line p (hok.2 p hp) acc) ?_
    rw [List.map_id]
    exact Reads.pure _
  case other n b =>
    refine reads_attr (name := n) (content := b) h hn ?_
    have hu := hok.2
    simp only [nameIs_unknown hu (show "LineNumberTable" ∈ _ by simp), Bool.false_eq_true, if_false]
    exact Reads.map (skips_content hok.1) (Reads.pure _)

theorem reads_code {es st} (h : Holds es st) (c : SrcCode) (hok : c.Ok es) :
    Reads (parseCode st) c.bytes c.info := by
  refine Reads.bind (reads_read2 _) ?_
  refine Reads.bind (reads_read2 _) ?_
  refine Reads.bind (reads_read4 _) ?_
  refine Reads.bind (reads_content hok.body) ?_
  refine Reads.after (reads_tableMap (f := id) c.handlers hok.handlerCount
    fun x hx acc => reads_handler x (hok.handlers x hx) acc) ?_
  refine Reads.afterMap (reads_table c.attrs hok.count
    (fun x hx => reads_codeAttr h x (hok.attrs x hx).1 (hok.attrs x hx).2) _) ?_
  have e1 : c.attrs.foldl linesUpd none = c.info.lines := by
    have := foldl_last linesUpd (fun a => a)
      (fun a : Nat × CodeAttr => match a.2 with | .lines l => some l | _ => none)
      (by rintro b ⟨_, x⟩; cases x <;> simp [linesUpd]) c.attrs none
    rw [Option.or_none] at this
    exact this
  rw [e1, List.map_id, toNat16 hok.maxStack, toNat16 hok.maxLocals]
  exact Reads.pure c.info

/-! ### Methods -/

def MethodAcc.upd (es : List Entry) (a : MethodAcc) : Nat × MethodAttr → MethodAcc
  | (_, .code c) => { a with code := some c.info }
  | (_, .exceptions l) => { a with exceptions := some l }
  | (_, .annotationDefault b) => { a with annotationDefault := some b }
  | (_, .signature n) => { a with signature := some (.bytes (text es n)) }
  | (_, .annotations b) => { a with annotations := some b }
  | (_, .parameterAnnotations b) => { a with parameterAnnotations := some b }
  | (_, .other _ _) => a

theorem reads_number (n : Nat) (h : n < 65536) (acc : List Nat) :
    Reads (parseException acc) (be2 n) (acc ++ [n]) := by
  refine Reads.map (reads_read2 _) ?_
  rw [toNat16 h]
  exact Reads.pure _

theorem reads_methodAttr {es st} (h : Holds es st) (x : Nat × MethodAttr)
    (hn : textAt es x.1 = some x.2.name) (hok : x.2.Ok es) (a : MethodAcc) :
    Reads (methodAttribute st a) (attrBytes x.1 x.2.content) (a.upd es x) := by
  obtain ⟨num, x⟩ := x
  cases x
  case code c =>
    refine reads_attr (name := ascii "Code") (content := c.bytes) h hn ?_
    pick
    exact Reads.map (reads_code h c hok) (Reads.pure _)
  case exceptions l =>
    refine reads_attr (name := ascii "Exceptions") (content := table be2 l) h hn ?_
    pick
    refine Reads.afterMap (reads_tableMap (f := id) l hok.1 fun p hp acc =>
      reads_number p (hok.2 p hp) acc) ?_
    rw [List.map_id]
    exact Reads.pure _
  case annotationDefault b =>
    refine reads_attr (name := ascii "AnnotationDefault") (content := b) h hn ?_
    pick
    exact Reads.map (reads_content hok) (Reads.pure _)
  case signature n =>
    refine reads_attr (name := ascii "Signature") (content := be2 n) h hn ?_
    obtain ⟨l, hl⟩ := hok
    pick
    exact Reads.map (reads_object h hl) (Reads.pure _)
  case annotations b =>
    refine reads_attr (name := ascii "RuntimeVisibleAnnotations") (content := b) h hn ?_
    pick
    exact Reads.map (reads_content hok) (Reads.pure _)
  case parameterAnnotations b =>
    refine reads_attr (name := ascii "RuntimeVisibleParameterAnnotations") (content := b) h hn ?_
    pick
    exact Reads.map (reads_content hok) (Reads.pure _)
  case other n b =>
    refine reads_attr (name := n) (content := b) h hn ?_
    have hu := hok.2
    simp only [nameIs_unknown hu (show "Code" ∈ _ by simp),
      nameIs_unknown hu (show "Exceptions" ∈ _ by simp),
      nameIs_unknown hu (show "AnnotationDefault" ∈ _ by simp),
      nameIs_unknown hu (show "Signature" ∈ _ by simp),
      nameIs_unknown hu (show "RuntimeVisibleAnnotations" ∈ _ by simp),
      nameIs_unknown hu (show "RuntimeVisibleParameterAnnotations" ∈ _ by simp), Bool.false_eq_true, if_false]
    exact Reads.map (skips_content hok.1) (Reads.pure _)

theorem isStatic_ofNat {n : Nat} (h : n < 65536) : isStatic (BitVec.ofNat 16 n) = n.testBit 3 := by
  unfold isStatic
  rw [Bool.eq_iff_iff, decide_eq_true_iff]
  have h1 : (BitVec.ofNat 16 n).getLsbD 3 = n.testBit 3 := by
    rw [BitVec.getLsbD_ofNat]; simp
  rw [← h1]
  constructor
  · intro h2
    cases h3 : (BitVec.ofNat 16 n).getLsbD 3
    · exfalso; apply h2
      apply BitVec.eq_of_getLsbD_eq
      intro i hi
      rw [BitVec.getLsbD_and, BitVec.getLsbD_zero]
      by_cases hi3 : i = 3
      · subst hi3; rw [h3]; rfl
      · have : (8#16).getLsbD i = false := by
          have : ∀ j : Fin 16, j.val ≠ 3 → (8#16).getLsbD j.val = false := by decide
          exact this ⟨i, hi⟩ hi3
        rw [this]; simp
    · rfl
  · intro h2 h3
    have := congrArg (fun v => v.getLsbD 3) h3
    rw [BitVec.getLsbD_and, h2] at this
    exact absurd this (by decide)

theorem reads_method {es st} (h : Holds es st) (m : SrcMethod) (hok : m.Ok es)
    (acc : List MethodInfo) :
    Reads (parseMethod st acc) m.bytes (acc ++ [m.info es]) := by
  obtain ⟨nm, hnm⟩ := hok.name
  obtain ⟨sp, hsp, hdesc⟩ := hok.spec
  refine Reads.bind (reads_read2 _) ?_
  refine Reads.bind (reads_read2 _) ?_
  refine Reads.bind (reads_read2 _) ?_
  refine Reads.afterMap (reads_table m.attrs hok.count
    (fun x hx => reads_methodAttr h x (hok.attrs x hx).1 (hok.attrs x hx).2) _) ?_
  refine Reads.seq (Reads.lift (h.byteArray1 hsp)) ?_
  refine Reads.seq (Reads.lift (v := (m.params.length,
    Descriptor.slots m.params + (if m.flags.testBit 3 then 0 else 1), Descriptor.kind m.ret)) ?_) ?_
  · rw [hdesc, Descriptor.scan_correct m.params m.ret hok.params, isStatic_ofNat hok.flags]
  refine Reads.seq (Reads.lift (h.byteArray1 hnm)) ?_
  have e_code : (m.attrs.foldl (MethodAcc.upd es) ⟨none, none, none, none, none, none⟩).code = (m.info es).code := by
    rw [foldl_last (MethodAcc.upd es) (fun a => a.code) _ ?_ m.attrs]
    · simp [SrcMethod.info]; rfl
    · rintro b ⟨_, x⟩; cases x <;> simp [MethodAcc.upd]
  have e_exceptions : (m.attrs.foldl (MethodAcc.upd es) ⟨none, none, none, none, none, none⟩).exceptions = (m.info es).exceptions := by
    rw [foldl_last (MethodAcc.upd es) (fun a => a.exceptions) _ ?_ m.attrs]
    · simp [SrcMethod.info]; rfl
    · rintro b ⟨_, x⟩; cases x <;> simp [MethodAcc.upd]
  have e_annotationDefault : (m.attrs.foldl (MethodAcc.upd es) ⟨none, none, none, none, none, none⟩).annotationDefault = (m.info es).annotationDefault := by
    rw [foldl_last (MethodAcc.upd es) (fun a => a.annotationDefault) _ ?_ m.attrs]
    · simp [SrcMethod.info]; rfl
    · rintro b ⟨_, x⟩; cases x <;> simp [MethodAcc.upd]
  have e_signature : (m.attrs.foldl (MethodAcc.upd es) ⟨none, none, none, none, none, none⟩).signature = (m.info es).signature := by
    rw [foldl_last (MethodAcc.upd es) (fun a => a.signature) _ ?_ m.attrs]
    · simp [SrcMethod.info]; rfl
    · rintro b ⟨_, x⟩; cases x <;> simp [MethodAcc.upd]
  have e_annotations : (m.attrs.foldl (MethodAcc.upd es) ⟨none, none, none, none, none, none⟩).annotations = (m.info es).annotations := by
    rw [foldl_last (MethodAcc.upd es) (fun a => a.annotations) _ ?_ m.attrs]
    · simp [SrcMethod.info]; rfl
    · rintro b ⟨_, x⟩; cases x <;> simp [MethodAcc.upd]
  have e_parameterAnnotations : (m.attrs.foldl (MethodAcc.upd es) ⟨none, none, none, none, none, none⟩).parameterAnnotations = (m.info es).parameterAnnotations := by
    rw [foldl_last (MethodAcc.upd es) (fun a => a.parameterAnnotations) _ ?_ m.attrs]
    · simp [SrcMethod.info]; rfl
    · rintro b ⟨_, x⟩; cases x <;> simp [MethodAcc.upd]
  rw [e_code, e_exceptions, e_annotationDefault, e_signature, e_annotations,
    e_parameterAnnotations, toNat16 hok.flags]
  have e4 : text es m.name = nm := by unfold text; rw [hnm]; rfl
  have e5 : text es m.spec = sp := by unfold text; rw [hsp]; rfl
  subst e4; subst e5
  exact Reads.pure (acc ++ [m.info es])

theorem reads_methods {es st} (h : Holds es st) (ms : List SrcMethod) (hn : ms.length < 65536)
    (hok : ∀ m ∈ ms, m.Ok es) :
    Reads (parseMethods st) (table SrcMethod.bytes ms) (ms.map (SrcMethod.info es)) :=
  reads_tableMap ms hn fun m hm acc => reads_method h m (hok m hm) acc

/-! ### The class -/

theorem className16_of {es st} (h : Holds es st) {n : Nat}
    (hn : n = 0 ∨ n < 32768 ∧ ∃ l, classAt es n = some l) :
    Reads (className16 st (BitVec.ofNat 16 n)) [] (classAt es n) := by
  unfold className16
  rcases hn with h0 | ⟨h1, l, hl⟩
  · subst h0
    rw [if_pos rfl]
    exact Reads.pure _
  · obtain ⟨h0, _⟩ := class_lt h.few hl
    rw [if_neg (fun h2 => h0 ((ofNat16_zero (by omega)).1 h2)), slot16_ofNat h0 h1]
    refine Reads.seq (Reads.lift (h.reference hl)) ?_
    rw [hl]
    exact Reads.pure _

theorem text16_of {es st} (h : Holds es st) {n : Nat}
    (hn : n = 0 ∨ n < 32768 ∧ ∃ l, textAt es n = some l) :
    Reads (text16 st (BitVec.ofNat 16 n)) [] (textAt es n) := by
  unfold text16
  rcases hn with h0 | ⟨h1, l, hl⟩
  · subst h0
    rw [if_pos rfl]
    exact Reads.pure _
  · obtain ⟨h0, _⟩ := text_lt h.few hl
    rw [if_neg (fun h2 => h0 ((ofNat16_zero (by omega)).1 h2)), slot16_ofNat h0 h1]
    refine Reads.seq (Reads.lift (h.byteArray hl)) ?_
    rw [hl]
    exact Reads.pure _

theorem reads_inner {es st} (h : Holds es st) (i : SrcInner) (hok : i.Ok es)
    (acc : List InnerInfo) :
    Reads (parseInner st acc) i.bytes (acc ++ [i.info es]) := by
  refine Reads.bind (reads_read2 _) ?_
  refine Reads.bind (reads_read2 _) ?_
  refine Reads.bind (reads_read2 _) ?_
  refine Reads.map (reads_read2 _) ?_
  refine Reads.seq (className16_of h hok.inner) ?_
  refine Reads.seq (className16_of h hok.outer) ?_
  refine Reads.seq (text16_of h hok.name) ?_
  rw [toNat16 hok.flags]
  exact Reads.pure _

theorem char1_ofNat {n : Nat} (h0 : 1 ≤ n) (h : n < 65536) : char1 (BitVec.ofNat 16 n) = n - 1 := by
  unfold char1
  rw [BitVec.toNat_sub, toNat16 h]
  simp
  omega

theorem reads_bootstrap (b : Nat × List Nat) (h : 1 ≤ b.1 ∧ b.1 < 65536 ∧ b.2.length < 65536 ∧
      ∀ a ∈ b.2, 1 ≤ a ∧ a < 65536) (acc : List (Nat × List Nat)) :
    Reads (parseBootstrap acc) (bootstrapBytes b) (acc ++ [(b.1 - 1, b.2.map (· - 1))]) := by
  refine Reads.bind (reads_read2 _) ?_
  refine Reads.afterMap (reads_tableMap (f := (· - 1)) b.2 h.2.2.1 ?_) ?_
  · intro a ha acc
    refine Reads.map (reads_read2 _) ?_
    rw [char1_ofNat (h.2.2.2 a ha).1 (h.2.2.2 a ha).2]
    exact Reads.pure _
  · rw [char1_ofNat h.1 h.2.1]
    exact Reads.pure _

def ClassAcc.upd (es : List Entry) (a : ClassAcc) : Nat × ClassAttr → ClassAcc
  | (_, .sourceFile n) => { a with sourceFile := some (text es n) }
  | (_, .signature n) => { a with signature := some (.bytes (text es n)) }
  | (_, .inner l) => { a with inner := some (l.map (SrcInner.info es)) }
  | (_, .annotations b) => { a with annotations := some b }
  | (_, .bootstrap l) => { a with bootstrap := some (l.map fun b => (b.1 - 1, b.2.map (· - 1))) }
  | (_, .enclosing c m) => { a with enclosing := some ((classAt es c).getD [], nameTypeAt es m) }
  | (_, .other _ _) => a

theorem reads_classAttr {es st} (h : Holds es st) (x : Nat × ClassAttr)
    (hn : textAt es x.1 = some x.2.name) (hok : x.2.Ok es) (a : ClassAcc) :
    Reads (classAttribute st a) (attrBytes x.1 x.2.content) (a.upd es x) := by
  obtain ⟨num, x⟩ := x
  cases x
  case sourceFile n =>
    refine reads_attr (name := ascii "SourceFile") (content := be2 n) h hn ?_
    obtain ⟨l, hl⟩ := hok
    pick
    exact Reads.map (reads_text h hl) (Reads.pure _)
  case signature n =>
    refine reads_attr (name := ascii "Signature") (content := be2 n) h hn ?_
    obtain ⟨l, hl⟩ := hok
    pick
    exact Reads.map (reads_object h hl) (Reads.pure _)
  case inner l =>
    refine reads_attr (name := ascii "InnerClasses") (content := table SrcInner.bytes l) h hn ?_
    pick
    exact Reads.afterMap (reads_tableMap l hok.1 fun i hi acc =>
      reads_inner h i (hok.2 i hi) acc) (Reads.pure _)
  case annotations b =>
    refine reads_attr (name := ascii "RuntimeVisibleAnnotations") (content := b) h hn ?_
    pick
    exact Reads.map (reads_content hok) (Reads.pure _)
  case bootstrap l =>
    refine reads_attr (name := ascii "BootstrapMethods") (content := table bootstrapBytes l) h hn ?_
    pick
    exact Reads.afterMap (reads_tableMap (f := fun b => (b.1 - 1, b.2.map (· - 1))) l hok.1
      fun b hb acc => reads_bootstrap b (hok.2 b hb) acc) (Reads.pure _)
  case enclosing c m =>
    refine reads_attr (name := ascii "EnclosingMethod") (content := be2 c ++ be2 m) h hn ?_
    pick
    obtain ⟨⟨hc, l, hl⟩, hm⟩ := hok
    refine Reads.bind (reads_read2 _) ?_
    refine Reads.map (reads_read2 _) ?_
    rw [slot16_ofNat (class_lt h.few hl).1 hc]
    refine Reads.seq (Reads.lift (h.reference hl)) ?_
    rcases hm with h0 | ⟨hm, ⟨p1, p2⟩, hp⟩
    · subst h0
      rw [if_pos rfl]
      simp only [ClassAcc.upd, hl, Option.getD_some]
      exact Reads.pure _
    · have h0 := (nameType_lt h.few hp).1
      rw [if_neg (fun h2 => h0 ((ofNat16_zero (by omega)).1 h2)), slot16_ofNat h0 hm]
      refine Reads.seq (Reads.lift (h.pair hp)) ?_
      simp only [ClassAcc.upd, hl, hp, Option.getD_some]
      exact Reads.pure _
  case other n b =>
    refine reads_attr (name := n) (content := b) h hn ?_
    have hu := hok.2
    simp only [nameIs_unknown hu (show "SourceFile" ∈ _ by simp),
      nameIs_unknown hu (show "Signature" ∈ _ by simp),
      nameIs_unknown hu (show "InnerClasses" ∈ _ by simp),
      nameIs_unknown hu (show "RuntimeVisibleAnnotations" ∈ _ by simp),
      nameIs_unknown hu (show "BootstrapMethods" ∈ _ by simp),
      nameIs_unknown hu (show "EnclosingMethod" ∈ _ by simp), Bool.false_eq_true, if_false]
    exact Reads.map (skips_content hok.1) (Reads.pure _)

theorem classAttr_fold (es : List Entry) (attrs : List (Nat × ClassAttr)) :
    attrs.foldl (ClassAcc.upd es) ⟨none, none, none, none, none, none⟩ = classAttrInfo es attrs := by
  have e_sourceFile : (attrs.foldl (ClassAcc.upd es) ⟨none, none, none, none, none, none⟩).sourceFile = (classAttrInfo es attrs).sourceFile := by
    rw [foldl_last (ClassAcc.upd es) (fun a => a.sourceFile) _ ?_ attrs]
    · simp [classAttrInfo]; rfl
    · rintro b ⟨_, x⟩; cases x <;> simp [ClassAcc.upd]
  have e_signature : (attrs.foldl (ClassAcc.upd es) ⟨none, none, none, none, none, none⟩).signature = (classAttrInfo es attrs).signature := by
    rw [foldl_last (ClassAcc.upd es) (fun a => a.signature) _ ?_ attrs]
    · simp [classAttrInfo]; rfl
    · rintro b ⟨_, x⟩; cases x <;> simp [ClassAcc.upd]
  have e_inner : (attrs.foldl (ClassAcc.upd es) ⟨none, none, none, none, none, none⟩).inner = (classAttrInfo es attrs).inner := by
    rw [foldl_last (ClassAcc.upd es) (fun a => a.inner) _ ?_ attrs]
    · simp [classAttrInfo]; rfl
    · rintro b ⟨_, x⟩; cases x <;> simp [ClassAcc.upd]
  have e_annotations : (attrs.foldl (ClassAcc.upd es) ⟨none, none, none, none, none, none⟩).annotations = (classAttrInfo es attrs).annotations := by
    rw [foldl_last (ClassAcc.upd es) (fun a => a.annotations) _ ?_ attrs]
    · simp [classAttrInfo]; rfl
    · rintro b ⟨_, x⟩; cases x <;> simp [ClassAcc.upd]
  have e_bootstrap : (attrs.foldl (ClassAcc.upd es) ⟨none, none, none, none, none, none⟩).bootstrap = (classAttrInfo es attrs).bootstrap := by
    rw [foldl_last (ClassAcc.upd es) (fun a => a.bootstrap) _ ?_ attrs]
    · simp [classAttrInfo]; rfl
    · rintro b ⟨_, x⟩; cases x <;> simp [ClassAcc.upd]
  have e_enclosing : (attrs.foldl (ClassAcc.upd es) ⟨none, none, none, none, none, none⟩).enclosing = (classAttrInfo es attrs).enclosing := by
    rw [foldl_last (ClassAcc.upd es) (fun a => a.enclosing) _ ?_ attrs]
    · simp [classAttrInfo]; rfl
    · rintro b ⟨_, x⟩; cases x <;> simp [ClassAcc.upd]
  generalize List.foldl (ClassAcc.upd es) ⟨none, none, none, none, none, none⟩ attrs = x at *
  generalize classAttrInfo es attrs = y at *
  cases x; cases y
  simp only at *
  subst_vars
  rfl

theorem reads_interface {es st} (h : Holds es st) (n : Nat) (hn : ∃ l, classAt es n = some l)
    (acc : List Bytes) :
    Reads (parseInterface st acc) (be2 n) (acc ++ [(classAt es n).getD []]) := by
  obtain ⟨l, hl⟩ := hn
  refine Reads.map (reads_read2 _) ?_
  refine Reads.seq (Reads.lift (h.reference1 hl)) ?_
  rw [hl]
  exact Reads.pure _

end Avian.ClassFile
