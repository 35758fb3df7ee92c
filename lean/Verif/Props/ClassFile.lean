import Verif.Class.ClassReads
import Verif.Props.Pool

/-
Property C53: a class has the parts its class file states.
-/
namespace Avian.ClassFile
open Avian.Stream

/-- What a class file states, apart from the constants. -/
structure States (c : SrcClass) (r : ClassInfo) : Prop where
  flags : r.flags = c.flags
  name : classAt c.pool c.name = some r.name
  /-- Number zero: no superclass. -/
  super : r.super = if c.super = 0 then none else classAt c.pool c.super
  interfaces : r.interfaces.map some = c.interfaces.map (classAt c.pool)
  fields : r.fields = c.fields.map (SrcField.info c.pool)
  methods : r.methods = c.methods.map (SrcMethod.info c.pool)
  attributes : r.attributes = classAttrInfo c.pool c.attrs

/-- What the constants of a class file state. -/
structure Constants (es : List Entry) (st : St) : Prop where
  size : st.pool.poolSize = (slots es).length
  means : ∀ n e w, constant es n = some e → Means es e w → st.pool.body (n - 1) = w
  objects : ∀ n e, constant es n = some e → st.pool.isObject (n - 1) = some e.isObject
  floats : ∀ k e b, (slots es)[k]? = some (e, b) →
    st.pool.bit st.pool.poolSize k = some e.isFloat
  once : st.invocations.Nodup
  sites : ∀ k, k ∈ st.invocations ↔ ∃ b nt, constant es (k + 1) = some (.invokeDynamic b nt)

/-- C53: whatever follows the class file, the loader reads exactly its bytes, without reporting an
error, and delivers every part as stated: flags, names, superclass, interfaces, fields with type,
constant, signature and annotations, methods with parameter count, argument slots, return kind,
code, handlers, line numbers, thrown classes, signature and annotations, and the class attributes;
attributes may come in any order and between unknown ones. The full statement has no bound on the
constant numbers of inner classes and enclosing methods; they are below 32768 here (`SrcInner.Ok`,
`ClassAttr.Ok`), because it is false beyond: see `inner_class_number_unreadable`. -/
theorem class_as_written_partial (debug : Bool) (depth : Nat) (hdepth : 4 ≤ depth) (c : SrcClass)
    (hok : c.Ok) (rest : Bytes) (hsmall : (c.bytes ++ rest).length < 2 ^ 32) :
    ∃ r s', parseClass debug depth (Stream.new (c.bytes ++ rest)) = some (r, s') ∧
      s'.position.toNat = c.bytes.length ∧ s'.errors = 0 ∧
      Constants c.pool r.pool ∧ States c r := by
  have hon := on_new (c.bytes ++ rest) hsmall
  have hhas : Has (c.bytes ++ rest) 0 c.bytes := ⟨rest, rfl⟩
  generalize hd : c.bytes ++ rest = d at hon hhas
  unfold parseClass
  -- the number and the versions
  obtain ⟨s1, e1, o1⟩ := reads_read4 0xCAFEBABE d 0 _ 0 hon hhas.left
  have h1 := hhas.right
  obtain ⟨s2, e2, o2⟩ := reads_read2 c.minor d 0 _ _ o1 h1.left
  have h2 := h1.right
  obtain ⟨s3, e3, o3⟩ := reads_read2 c.major d 0 _ _ o2 h2.left
  have h3 := h2.right
  -- the constants
  obtain ⟨st, s4, e4, o4, q1, q2, q3, q4, q5, q6⟩ :=
    pool_as_written debug depth hdepth c.pool hok.pool d 0 _ _ o3 h3.left
  have h4 := h3.right
  have hh : Holds c.pool st := ⟨hok.pool.few, q2, q3⟩
  obtain ⟨nm, hnm⟩ := hok.name
  -- the rest
  have hrest : Reads (do
      let flags ← read2
      let name ← read2
      let nm ← lift (st.reference (minus1 name))
      let super ← read2
      let sup ← superName st super
      let ni ← read2
      let interfaces ← times ni.toNat (parseInterface st) []
      let fields ← parseFields st
      let methods ← parseMethods st
      let na ← read2
      let attributes ← times na.toNat (classAttribute st) ⟨none, none, none, none, none, none⟩
      pure (⟨st, flags.toNat, nm.2.2.1, sup, interfaces, fields, methods, attributes⟩ : ClassInfo))
      (be2 c.flags ++
    (be2 c.name ++ (be2 c.super ++ (table be2 c.interfaces ++ (table SrcField.bytes c.fields ++
      (table SrcMethod.bytes c.methods ++
        table (fun a : Nat × ClassAttr => attrBytes a.1 a.2.content) c.attrs))))))
      ⟨st, c.flags, nm, if c.super = 0 then none else classAt c.pool c.super,
        c.interfaces.map (fun n => (classAt c.pool n).getD []),
        c.fields.map (SrcField.info c.pool), c.methods.map (SrcMethod.info c.pool),
        classAttrInfo c.pool c.attrs⟩ := by
    refine Reads.bind (reads_read2 _) ?_
    refine Reads.bind (reads_read2 _) ?_
    refine Reads.seq (Reads.lift (hh.reference1 hnm)) ?_
    refine Reads.bind (reads_read2 _) ?_
    refine Reads.seq (v := if c.super = 0 then none else classAt c.pool c.super) ?_ ?_
    · unfold superName
      rcases hok.super with h0 | ⟨l, hl⟩
      · rw [h0, if_pos rfl, if_pos rfl]; exact Reads.pure _
      · obtain ⟨h0, h00⟩ := class_lt hh.few hl
        rw [if_neg (fun h2 => h0 ((ofNat16_zero h00).1 h2)), if_neg h0, hl]
        exact Reads.seq (Reads.lift (hh.reference1 hl)) (Reads.pure _)
    refine Reads.after (reads_tableMap c.interfaces hok.interfaceCount
      fun i hi acc => reads_interface hh i (hok.interfaces i hi) acc) ?_
    refine Reads.bind (reads_fields hh c.fields hok.fieldCount hok.fields) ?_
    refine Reads.bind (reads_methods hh c.methods hok.methodCount hok.methods) ?_
    refine Reads.afterMap (reads_table c.attrs hok.count
      (fun x hx => reads_classAttr hh x (hok.attrs x hx).1 (hok.attrs x hx).2) _) ?_
    rw [classAttr_fold, toNat16 hok.flags]
    exact Reads.pure _
  obtain ⟨s5, e5, o5⟩ := hrest d 0 _ _ o4 h4
  refine ⟨_, s5, ((bind_eq e1).trans ((congrFun (if_neg (by decide)) _).trans
    ((bind_eq e2).trans ((bind_eq e3).trans ((bind_eq e4).trans e5))))), ?_, o5.errors,
    ⟨q1, q2, q3, q4, q5, q6⟩, ?_⟩
  · rw [o5.pos]
    simp only [SrcClass.bytes, List.length_append]
    omega
  · refine ⟨rfl, hnm, rfl, ?_, rfl, rfl, rfl⟩
    rw [List.map_map]
    apply List.map_congr_left
    intro i hi
    obtain ⟨l, hl⟩ := hok.interfaces i hi
    simp [hl]

/-! ### A class with a constant field, a method with code, an inner class and an unknown attribute -/

/-- `class A { static final long x = 5; static void f(int, long) {...} class B {} }`. -/
def sampleClass : SrcClass where
  minor := 0
  major := 50
  pool := [.utf8 (ascii "A"), .cls 1, .utf8 (ascii "java/lang/Object"), .cls 3,
    .utf8 (ascii "x"), .utf8 (ascii "J"), .utf8 (ascii "ConstantValue"), .long 5#64,
    .utf8 (ascii "f"), .utf8 (ascii "(IJ)V"), .utf8 (ascii "Code"),
    .utf8 (ascii "LineNumberTable"), .utf8 (ascii "InnerClasses"), .utf8 (ascii "A$B"), .cls 15,
    .utf8 (ascii "B"), .utf8 (ascii "Deprecated")]
  flags := 0x21
  name := 2
  super := 4
  interfaces := [4]
  fields := [⟨0x18, 5, 6, .prim .long, [(18, .other (ascii "Deprecated") []), (7, .constantValue 8)]⟩]
  methods := [⟨0x8, 10, 11, [.prim .int, .prim .long], none,
    [(12, .code ⟨2, 3, [0#8, 0xB1#8], [⟨0, 1, 1, 0⟩],
      [(18, .other (ascii "Deprecated") [7#8]), (13, .lines [(0, 7), (1, 9)])]⟩)]⟩]
  attrs := [(14, .inner [⟨16, 2, 17, 9⟩]), (18, .other (ascii "Deprecated") [1#8, 2#8])]

private theorem deprecated_unknown {known : List String}
    (h : (known.all fun k => decide (ascii "Deprecated" ≠ ascii k)) = true) :
    Unknown known (ascii "Deprecated") :=
  ⟨by decide +kernel, fun k hk => of_decide_eq_true (List.all_eq_true.1 h k hk)⟩

theorem sampleClass_ok : sampleClass.Ok where
  pool := {
    fits := by
      intro e he
      simp only [sampleClass, List.mem_cons, List.not_mem_nil, or_false] at he
      rcases he with rfl|rfl|rfl|rfl|rfl|rfl|rfl|rfl|rfl|rfl|rfl|rfl|rfl|rfl|rfl|rfl|rfl <;>
        first | exact trivial | (simp only [Entry.Fits]; decide +kernel)
    means := by
      intro e he
      simp only [sampleClass, List.mem_cons, List.not_mem_nil, or_false] at he
      rcases he with rfl|rfl|rfl|rfl|rfl|rfl|rfl|rfl|rfl|rfl|rfl|rfl|rfl|rfl|rfl|rfl|rfl <;>
        first
        | exact ⟨_, .utf8 _⟩
        | exact ⟨_, .long _⟩
        | exact ⟨_, .cls (l := ascii "A") (by decide +kernel)⟩
        | exact ⟨_, .cls (l := ascii "A$B") (by decide +kernel)⟩
        | exact ⟨_, .cls (l := ascii "java/lang/Object") (by decide +kernel)⟩
    few := by decide +kernel }
  flags := by decide
  name := ⟨ascii "A", by decide +kernel⟩
  super := Or.inr ⟨ascii "java/lang/Object", by decide +kernel⟩
  interfaceCount := by decide
  interfaces := by
    intro i hi
    simp only [sampleClass, List.mem_cons, List.not_mem_nil, or_false] at hi
    subst hi
    exact ⟨ascii "java/lang/Object", by decide +kernel⟩
  fieldCount := by decide
  fields := by
    intro f hf
    simp only [sampleClass, List.mem_cons, List.not_mem_nil, or_false] at hf
    subst hf
    refine ⟨by decide, ⟨ascii "x", by decide +kernel⟩, by decide +kernel, by decide, ?_⟩
    intro a ha
    simp only [List.mem_cons, List.not_mem_nil, or_false] at ha
    rcases ha with rfl | rfl
    · exact ⟨by decide +kernel, by decide, deprecated_unknown (by decide +kernel)⟩
    · exact ⟨by decide +kernel, show 8 < 65536 by decide⟩
  methodCount := by decide
  methods := by
    intro f hf
    simp only [sampleClass, List.mem_cons, List.not_mem_nil, or_false] at hf
    subst hf
    refine ⟨by decide, ⟨ascii "f", by decide +kernel⟩, ⟨ascii "(IJ)V", by decide +kernel,
      by decide +kernel⟩, ?_, by decide, ?_⟩
    · intro p hp
      simp only [List.mem_cons, List.not_mem_nil, or_false] at hp
      rcases hp with rfl | rfl <;> exact trivial
    · intro a ha
      simp only [List.mem_cons, List.not_mem_nil, or_false] at ha
      subst ha
      refine ⟨by decide +kernel, ⟨by decide, by decide, by decide, by decide, ?_, by decide, ?_⟩⟩
      · intro h hh
        simp only [List.mem_cons, List.not_mem_nil, or_false] at hh
        subst hh
        exact ⟨by decide, by decide, by decide, by decide⟩
      · intro a ha
        simp only [List.mem_cons, List.not_mem_nil, or_false] at ha
        rcases ha with rfl | rfl
        · exact ⟨by decide +kernel, by decide, deprecated_unknown (by decide +kernel)⟩
        · exact ⟨by decide +kernel, by decide, by decide⟩
  count := by decide
  attrs := by
    intro a ha
    simp only [sampleClass, List.mem_cons, List.not_mem_nil, or_false] at ha
    rcases ha with rfl | rfl
    · refine ⟨by decide +kernel, by decide, ?_⟩
      intro i hi
      simp only [List.mem_cons, List.not_mem_nil, or_false] at hi
      subst hi
      exact ⟨Or.inr ⟨by decide, ascii "A$B", by decide +kernel⟩,
        Or.inr ⟨by decide, ascii "A", by decide +kernel⟩,
        Or.inr ⟨by decide, ascii "B", by decide +kernel⟩, by decide⟩
    · exact ⟨by decide +kernel, by decide, deprecated_unknown (by decide +kernel)⟩

/-- The hypotheses of `class_as_written_partial` hold for it, with a byte behind. -/
example : ∃ r s', parseClass true 4 (Stream.new (sampleClass.bytes ++ [1#8])) = some (r, s') ∧
    r.fields.map (·.value) = [8] ∧ r.methods.map (·.footprint) = [3] ∧
    r.methods.map (fun m => m.code.bind (·.lines)) = [some [(0, 7), (1, 9)]] ∧
    r.attributes.inner = some [⟨some (ascii "A$B"), some (ascii "A"), some (ascii "B"), 9⟩] := by
  obtain ⟨r, s', h1, _, _, _, h2⟩ := class_as_written_partial true 4 (Nat.le_refl 4) sampleClass
    sampleClass_ok [1#8] (by decide +kernel)
  refine ⟨r, s', h1, ?_, ?_, ?_, ?_⟩
  · rw [h2.fields]; decide +kernel
  · rw [h2.methods]; decide +kernel
  · rw [h2.methods]; decide +kernel
  · rw [h2.attributes]; decide +kernel

/-! ### Limits of the code -/

/-- C53 (limit of the code): constant numbers from 32768 on, which class files may have, cannot be
used by inner class records: the number is taken as a signed 16-bit integer and becomes a slot
far outside every pool. -/
theorem inner_class_number_unreadable (st : St) (hp : st.pool.length < 2 ^ 31) (n : Nat)
    (h1 : 32768 ≤ n) (h2 : n < 65536) (s : Stream) :
    className16 st (BitVec.ofNat 16 n) s = none := by
  have hslot : st.pool.count ≤ slot16 (BitVec.ofNat 16 n) := by
    have hc : st.pool.count ≤ st.pool.length := Nat.sub_le ..
    have : 2 ^ 31 ≤ slot16 (BitVec.ofNat 16 n) := by
      unfold slot16
      have hm : (BitVec.ofNat 16 n).msb = true := by
        rw [BitVec.msb_eq_true_iff_two_mul_ge]; simp; omega
      rw [BitVec.toNat_sub, BitVec.toNat_signExtend, hm]
      simp
      omega
    omega
  unfold className16
  rw [if_neg (fun h3 => by have := (ofNat16_zero h2).1 h3; omega)]
  have : st.reference (slot16 (BitVec.ofNat 16 n)) = none := by
    unfold St.reference Pool.object Pool.isObject
    rw [if_neg (by omega)]; rfl
  rw [this]; rfl

/-- The hypotheses hold for every pool a class file can have and a number such as 40000. -/
example (s : Stream) : className16 ⟨⟨65535, fun _ => .obj (.ref 0 none [] none)⟩, []⟩
    (BitVec.ofNat 16 40000) s = none :=
  inner_class_number_unreadable _ (by decide) 40000 (by decide) (by decide) s

/-- C53 (limit of the code): the stated length of a known attribute is ignored. Whatever it is, a
constant value takes two bytes, so a wrong length is not noticed and what follows is read from the
wrong place. -/
theorem stated_length_ignored (es : List Entry) (st : St) (h : Holds es st) (num n len : Nat)
    (hn : textAt es num = some (ascii "ConstantValue")) (h2 : n < 65536) (a : FieldAcc) :
    Reads (fieldAttribute st a) (be2 num ++ be4 len ++ be2 n) { a with value := n } := by
  refine Reads.bind (reads_head h len hn) ?_
  split
  · refine Reads.map (reads_read2 n) ?_
    rw [toNat16 h2]; exact Reads.pure _
  · rename_i hh
    dsimp only at hh
    exact absurd (by decide +kernel) hh

/-- The pool of `sampleClass`, as read, meets the hypotheses. -/
example : ∃ st, Holds sampleClass.pool st ∧
    textAt sampleClass.pool 7 = some (ascii "ConstantValue") := by
  obtain ⟨r, s', _, _, _, h, _⟩ := class_as_written_partial true 4 (Nat.le_refl 4) sampleClass
    sampleClass_ok [] (by decide +kernel)
  exact ⟨r.pool, ⟨sampleClass_ok.pool.few, h.means, h.objects⟩, by decide +kernel⟩

end Avian.ClassFile
