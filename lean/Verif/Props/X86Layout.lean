import Verif.Codegen.Layout
import Verif.Codegen.Link
import Verif.Codegen.Exec
import Verif.Props.X86Branch
import Verif.Lib.Outcome

/-
**C90.** Where compiled code goes.
-/
namespace Avian.X86.Layout

open Cpu (Byte)

/-! ### Specification -/

/-- The bytes that are missing up to where something `i` bytes further on is aligned. -/
def gap (al n : Nat) : Nat := (al - n % al) % al

/-- The place behind an item that is put at `pos`. -/
def Item.behind (pos : Nat) : Item → Nat
  | .bytes l => pos + l.length
  | .jump op _ => pos + (op.length + 4)
  | .align i al => pos + gap al (pos + i)
  | .mark => pos

def after (pos : Nat) (items : List Item) : Nat := items.foldl Item.behind pos

/-- The bytes of an item at `pos`; the distance of a jump is given by the place behind it. -/
def Item.image (disp : Nat → Target → List Byte) (pos : Nat) : Item → List Byte
  | .bytes l => l
  | .jump op t => op ++ disp (pos + (op.length + 4)) t
  | .align i al => List.replicate (gap al (pos + i)) 0x90#8
  | .mark => []

def image (disp : Nat → Target → List Byte) (pos : Nat) : List Item → List Byte
  | [] => []
  | i :: is => i.image disp pos ++ image disp (i.behind pos) is

/-- The places that are marked in a block at `pos`. -/
def labelsIn (pos : Nat) : List Item → List Nat
  | [] => []
  | .mark :: is => pos :: labelsIn pos is
  | .bytes l :: is => labelsIn (Item.behind pos (.bytes l)) is
  | .jump op t :: is => labelsIn (Item.behind pos (.jump op t)) is
  | .align i al :: is => labelsIn (Item.behind pos (.align i al)) is

/-- The labels of a program, of which block `j` starts at `starts j`. -/
def labels (starts : Nat → Nat) : Nat → List (List Item) → List Nat
  | _, [] => []
  | j, b :: bs => labelsIn (starts j) b ++ labels starts (j + 1) bs

/-- The blocks lie one behind the other, in the given order. -/
def placed (program : List (List Item)) (start : Nat) : List Nat → List (Nat × Nat)
  | [] => []
  | j :: order => (j, start) :: placed program (after start (program.getD j [])) order

def total (program : List (List Item)) (start : Nat) : List Nat → Nat
  | [] => start
  | j :: order => total program (after start (program.getD j [])) order

def startOf (l : List (Nat × Nat)) (j : Nat) : Nat := ((l.find? fun p => p.1 == j).map Prod.snd).getD 0

/-- The address that a jump goes to. -/
def Target.address (dst : BitVec 64) (ls : List Nat) : Target → BitVec 64
  | .addr a => a
  | .label k => dst + BitVec.ofNat 64 (ls.getD k 0)

/-- The distance from behind a jump, in four bytes. -/
def distance (dst : BitVec 64) (ls : List Nat) (pos : Nat) (t : Target) : BitVec 64 :=
  t.address dst ls - (dst + BitVec.ofNat 64 pos)

/-- The jumps of a block at `pos`: where they are, the length of the opcode, and the target. -/
def jumpsIn (pos : Nat) : List Item → List (Nat × Nat × Target)
  | [] => []
  | .mark :: is => jumpsIn pos is
  | .bytes l :: is => jumpsIn (Item.behind pos (.bytes l)) is
  | .jump op t :: is => (pos, op.length, t) :: jumpsIn (Item.behind pos (.jump op t)) is
  | .align i al :: is => jumpsIn (Item.behind pos (.align i al)) is

def jumps (starts : Nat → Nat) : Nat → List (List Item) → List (Nat × Nat × Target)
  | _, [] => []
  | j, b :: bs => jumpsIn (starts j) b ++ jumps starts (j + 1) bs

/-- All alignments are possible. -/
def Aligns (program : List (List Item)) : Prop := ∀ b ∈ program, ∀ i al, Item.align i al ∈ b → 0 < al

/-! ### What the assembler has collected -/

def Item.raw : Item → List Byte
  | .bytes l => l
  | .jump op _ => op ++ [0#8, 0#8, 0#8, 0#8]
  | _ => []

def raw (items : List Item) : List Byte := items.flatMap Item.raw

def padsOf (o : Nat) : List Item → List Pad
  | [] => []
  | .align i al :: is => ⟨o, i, al, none⟩ :: padsOf o is
  | .bytes l :: is => padsOf (o + l.length) is
  | .jump op _ :: is => padsOf (o + (op.length + 4)) is
  | .mark :: is => padsOf o is

def marksOf (j o n : Nat) : List Item → List Mark
  | [] => []
  | .align _ _ :: is => marksOf j o (n + 1) is
  | .bytes l :: is => marksOf j (o + l.length) n is
  | .jump op _ :: is => marksOf j (o + (op.length + 4)) n is
  | .mark :: is => ⟨j, o, n⟩ :: marksOf j o n is

def tasksOf (j o n : Nat) : List Item → List Task
  | [] => []
  | .align _ _ :: is => tasksOf j o (n + 1) is
  | .bytes l :: is => tasksOf j (o + l.length) n is
  | .jump op t :: is => ⟨t, ⟨j, o, n⟩, op.length + 4⟩ :: tasksOf j (o + (op.length + 4)) n is
  | .mark :: is => tasksOf j o n is

theorem fold_step (items : List Item) (s : Asm) :
    items.foldl Asm.step s =
      { code := s.code ++ raw items
        blocks := s.blocks
        last := { s.last with pads := s.last.pads ++ padsOf s.code.length items }
        marks := s.marks ++ marksOf s.blocks.length s.code.length s.last.pads.length items
        tasks := (tasksOf s.blocks.length s.code.length s.last.pads.length items).reverse ++ s.tasks } := by
  induction items generalizing s with
  | nil => simp [raw, padsOf, marksOf, tasksOf]
  | cons i is ih =>
    rw [List.foldl_cons, ih]
    cases i <;> simp [Asm.step, Asm.offset, raw, Item.raw, padsOf, marksOf, tasksOf]

def blkOf (o : Nat) (items : List Item) : Blk := ⟨o, (raw items).length, padsOf o items, none⟩

def blocksFrom (o : Nat) : List (List Item) → List Blk
  | [] => []
  | b :: bs => blkOf o b :: blocksFrom (o + (raw b).length) bs

def marksFrom (j o : Nat) : List (List Item) → List Mark
  | [] => []
  | b :: bs => marksOf j o 0 b ++ marksFrom (j + 1) (o + (raw b).length) bs

def tasksFrom (j o : Nat) : List (List Item) → List Task
  | [] => []
  | b :: bs => tasksOf j o 0 b ++ tasksFrom (j + 1) (o + (raw b).length) bs

theorem compile_eq (program : List (List Item)) (s : Asm) (hs : s.last = ⟨s.code.length, 0, [], none⟩) :
    (s.compile program).code = s.code ++ program.flatMap raw ∧
    (s.compile program).blocks = s.blocks ++ blocksFrom s.code.length program ∧
    (s.compile program).marks = s.marks ++ marksFrom s.blocks.length s.code.length program ∧
    (s.compile program).tasks = (tasksFrom s.blocks.length s.code.length program).reverse ++ s.tasks := by
  induction program generalizing s with
  | nil => simp [Asm.compile, blocksFrom, marksFrom, tasksFrom]
  | cons b bs ih =>
    unfold Asm.compile
    rw [fold_step]
    obtain ⟨h1, h2, h3, h4⟩ := ih (Asm.endBlock
      { code := s.code ++ raw b
        blocks := s.blocks
        last := { s.last with pads := s.last.pads ++ padsOf s.code.length b }
        marks := s.marks ++ marksOf s.blocks.length s.code.length s.last.pads.length b
        tasks := (tasksOf s.blocks.length s.code.length s.last.pads.length b).reverse ++ s.tasks }) rfl
    refine ⟨?_, ?_, ?_, ?_⟩
    · rw [h1]; simp [Asm.endBlock]
    · rw [h2]; simp [Asm.endBlock, blocksFrom, blkOf, hs]
    · rw [h3]; simp [Asm.endBlock, marksFrom, hs]
    · rw [h4]; simp [Asm.endBlock, tasksFrom, hs]

/-! ### Padding -/

theorem gap_zero {al n : Nat} (h : n % al = 0) : gap al n = 0 := by
  unfold gap
  rw [h, Nat.sub_zero, Nat.mod_self]

theorem gap_succ {al n : Nat} (ha : 0 < al) (h : n % al ≠ 0) : gap al n = 1 + gap al (n + 1) := by
  unfold gap
  have h1 := Nat.mod_lt n ha
  have h2 : (n + 1) % al = if n % al + 1 = al then 0 else n % al + 1 := by
    rw [Nat.add_mod]
    split
    · rename_i e
      by_cases h1' : al = 1
      · subst h1'; omega
      · rw [Nat.mod_eq_of_lt (a := 1) (by omega), e, Nat.mod_self]
    · by_cases h1' : al = 1
      · subst h1'; omega
      · rw [Nat.mod_eq_of_lt (a := 1) (by omega), Nat.mod_eq_of_lt (by omega)]
  rw [h2]
  split
  · rw [Nat.sub_zero, Nat.mod_self, Nat.mod_eq_of_lt (by omega)]; omega
  · rw [Nat.mod_eq_of_lt (a := al - n % al) (by omega), Nat.mod_eq_of_lt (a := al - (n % al + 1)) (by omega)]; omega

theorem gap_lt {al n : Nat} (ha : 0 < al) : gap al n < al := Nat.mod_lt _ ha

theorem gap_aligns {al n : Nat} (ha : 0 < al) : (n + gap al n) % al = 0 := by
  unfold gap
  have h1 := Nat.mod_lt n ha
  by_cases h : n % al = 0
  · rw [h, Nat.sub_zero, Nat.mod_self, Nat.add_zero, h]
  · rw [Nat.mod_eq_of_lt (a := al - n % al) (by omega)]
    have := Nat.div_add_mod n al
    have e : n + (al - n % al) = al * (n / al + 1) := by rw [Nat.mul_add]; omega
    rw [e, Nat.mul_mod_right]

theorem bump_fuel {al : Nat} (ha : 0 < al) (f n : Nat) (h : gap al n ≤ f) : bump al n f = gap al n := by
  induction f generalizing n with
  | zero => unfold bump; omega
  | succ f ih =>
    unfold bump
    by_cases h0 : n % al = 0
    · rw [if_pos h0, gap_zero h0]
    · rw [if_neg h0, gap_succ ha h0, ih (n + 1) (by have := gap_succ ha h0; omega)]

/-- The loop ends when the place is aligned. -/
theorem bump_eq {al : Nat} (ha : 0 < al) (n : Nat) : bump al n al = gap al n := bump_fuel ha al n (by have := gap_lt (n := n) ha; omega)

/-- The padding in front of the code behind some alignments. -/
def cum (start offset : Nat) : Nat → List Pad → Nat
  | padding, [] => padding
  | padding, p :: ps => cum start offset (padding + gap p.align (start + (p.offset - offset) + padding + p.instr)) ps

def filled (start offset : Nat) : Nat → List Pad → List Pad
  | _, [] => []
  | padding, p :: ps =>
    { p with cache := some (padding + gap p.align (start + (p.offset - offset) + padding + p.instr)) } ::
      filled start offset (padding + gap p.align (start + (p.offset - offset) + padding + p.instr)) ps

def Fresh (pads : List Pad) : Prop := ∀ p ∈ pads, p.cache = none ∧ 0 < p.align

theorem padLoop_eq (start offset limit : Nat) (pads : List Pad) (hf : Fresh pads) (i padding : Nat) (hl : limit = i + pads.length) :
    padLoop start offset limit pads i padding = (cum start offset padding pads, filled start offset padding pads) := by
  induction pads generalizing i padding with
  | nil => rfl
  | cons p ps ih =>
    obtain ⟨h1, h2⟩ := hf p (by simp)
    rw [padLoop, h1]
    simp only [bump_eq h2]
    simp only [List.length_cons] at hl
    split
    · rename_i e
      have : ps = [] := List.eq_nil_of_length_eq_zero (by omega)
      subst this
      rfl
    · rw [ih (fun q hq => hf q (List.mem_cons_of_mem _ hq)) (i + 1) _ (by omega)]
      rfl

theorem filled_length (start offset padding : Nat) (pads : List Pad) : (filled start offset padding pads).length = pads.length := by
  induction pads generalizing padding with
  | nil => rfl
  | cons p ps ih => simp [filled, ih]

theorem filled_get (start offset padding : Nat) (pads : List Pad) (k : Nat) (hk : k < pads.length) :
    ((filled start offset padding pads)[k]?).bind Pad.cache = some (cum start offset padding (pads.take (k + 1))) := by
  induction pads generalizing padding k with
  | nil => simp at hk
  | cons p ps ih =>
    cases k with
    | zero => simp [filled, cum]
    | succ k =>
      rw [filled, List.getElem?_cons_succ, List.take_succ_cons, cum]
      exact ih _ k (by simpa using hk)

/-- Asking for the padding of a block the first time. -/
theorem padding_first (pads : List Pad) (hf : Fresh pads) (start offset : Nat) :
    padding pads start offset pads.length = (cum start offset 0 pads, filled start offset 0 pads) := by
  unfold padding
  by_cases h : pads.length = 0
  · rw [if_pos h, List.eq_nil_of_length_eq_zero h]; rfl
  · rw [if_neg h]
    have : ((pads[pads.length - 1]?).bind Pad.cache) = none := by
      rw [List.getElem?_eq_getElem (by omega)]
      exact (hf _ (List.getElem_mem _)).1
    rw [this]
    exact padLoop_eq start offset _ pads hf 0 0 (by omega)

/-- Asking again. -/
theorem padding_again (pads : List Pad) (start offset limit : Nat) (hl : limit ≤ pads.length) :
    padding (filled start offset 0 pads) start offset limit = (cum start offset 0 (pads.take limit), filled start offset 0 pads) := by
  unfold padding
  by_cases h : limit = 0
  · rw [if_pos h, h]; rfl
  · rw [if_neg h, filled_get start offset 0 pads (limit - 1) (by omega)]
    simp only [Nat.sub_add_cancel (Nat.one_le_iff_ne_zero.2 h)]

/-! ### Places -/

theorem raw_cons (i : Item) (is : List Item) : raw (i :: is) = i.raw ++ raw is := rfl

theorem after_cons (pos : Nat) (i : Item) (is : List Item) : after pos (i :: is) = after (i.behind pos) is := rfl

theorem after_eq (items : List Item) (start b o padding : Nat) (hb : b ≤ o) :
    after (start + (o - b) + padding) items = start + (o + (raw items).length - b) + cum start b padding (padsOf o items) := by
  induction items generalizing o padding with
  | nil => simp [after, raw, padsOf, cum]
  | cons i is ih =>
    rw [after_cons, raw_cons]
    cases i with
    | bytes l =>
      have := ih (o + l.length) padding (by omega)
      simp only [Item.behind, Item.raw, padsOf, List.length_append] at this ⊢
      rw [show start + (o - b) + padding + l.length = start + (o + l.length - b) + padding by omega, this]
      omega
    | jump op t =>
      have := ih (o + (op.length + 4)) padding (by omega)
      simp only [Item.behind, Item.raw, padsOf, List.length_append, List.length_cons, List.length_nil] at this ⊢
      rw [show start + (o - b) + padding + (op.length + 4) = start + (o + (op.length + 4) - b) + padding by omega, this]
      omega
    | align n al =>
      have := ih o (padding + gap al (start + (o - b) + padding + n)) hb
      simp only [Item.behind, Item.raw, padsOf, cum, List.nil_append] at this ⊢
      rw [show start + (o - b) + padding + gap al (start + (o - b) + padding + n) =
        start + (o - b) + (padding + gap al (start + (o - b) + padding + n)) by omega, this]
    | mark => exact ih o padding hb

/-- The value of a promise in a block at `start`. -/
def at' (start b : Nat) (pads : List Pad) (m : Mark) : Nat := start + (m.offset - b) + cum start b 0 (pads.take m.limit)

theorem cum_append (start b padding : Nat) (l r : List Pad) : cum start b padding (l ++ r) = cum start b (cum start b padding l) r := by
  induction l generalizing padding with
  | nil => rfl
  | cons p ps ih => simp only [List.cons_append, cum, ih]

theorem marks_eq (items : List Item) (start b o j : Nat) (pre : List Pad) (hb : b ≤ o) :
    (marksOf j o pre.length items).map (at' start b (pre ++ padsOf o items)) = labelsIn (start + (o - b) + cum start b 0 pre) items := by
  induction items generalizing o pre with
  | nil => rfl
  | cons i is ih =>
    cases i with
    | bytes l =>
      have := ih (o + l.length) pre (by omega)
      simp only [marksOf, padsOf, labelsIn, Item.behind]
      rw [this]
      congr 1
      omega
    | jump op t =>
      have := ih (o + (op.length + 4)) pre (by omega)
      simp only [marksOf, padsOf, labelsIn, Item.behind]
      rw [this]
      congr 1
      omega
    | align n al =>
      have := ih o (pre ++ [⟨o, n, al, none⟩]) hb
      simp only [List.length_append, List.length_cons, List.length_nil, List.append_assoc, List.cons_append, List.nil_append] at this
      simp only [marksOf, padsOf, labelsIn, Item.behind]
      rw [this, cum_append]
      simp only [cum]
      congr 1
      omega
    | mark =>
      have := ih o pre hb
      simp only [marksOf, padsOf, labelsIn, List.map_cons]
      rw [this]
      congr 1
      simp [at']

theorem tasks_eq (items : List Item) (start b o j : Nat) (pre : List Pad) (hb : b ≤ o) :
    (tasksOf j o pre.length items).map (fun t => (at' start b (pre ++ padsOf o items) t.instr, t.length - 4, t.target)) =
      jumpsIn (start + (o - b) + cum start b 0 pre) items := by
  induction items generalizing o pre with
  | nil => rfl
  | cons i is ih =>
    cases i with
    | bytes l =>
      have := ih (o + l.length) pre (by omega)
      simp only [tasksOf, padsOf, jumpsIn, Item.behind]
      rw [this]
      congr 1
      omega
    | jump op t =>
      have := ih (o + (op.length + 4)) pre (by omega)
      simp only [tasksOf, padsOf, jumpsIn, Item.behind, List.map_cons]
      rw [this]
      congr 1
      · simp [at']
      · congr 1
        omega
    | align n al =>
      have := ih o (pre ++ [⟨o, n, al, none⟩]) hb
      simp only [List.length_append, List.length_cons, List.length_nil, List.append_assoc, List.cons_append, List.nil_append] at this
      simp only [tasksOf, padsOf, jumpsIn, Item.behind]
      rw [this, cum_append]
      simp only [cum]
      congr 1
      omega
    | mark =>
      have := ih o pre hb
      simp only [tasksOf, padsOf, jumpsIn]
      exact this

theorem marks_fields (items : List Item) (j o n : Nat) :
    ∀ m ∈ marksOf j o n items, m.block = j ∧ n ≤ m.limit ∧ m.limit ≤ n + (padsOf o items).length := by
  induction items generalizing o n with
  | nil => simp [marksOf]
  | cons i is ih =>
    intro m hm
    cases i with
    | bytes l => exact ih _ _ m hm
    | jump op t => exact ih _ _ m hm
    | align a al =>
      have := ih _ _ m hm
      simp only [padsOf, List.length_cons]
      omega
    | mark =>
      simp only [marksOf, List.mem_cons] at hm
      rcases hm with rfl | hm
      · simp [padsOf]
      · exact ih _ _ m hm

theorem tasks_fields (items : List Item) (j o n : Nat) :
    ∀ t ∈ tasksOf j o n items, t.instr.block = j ∧ t.instr.limit ≤ n + (padsOf o items).length ∧ 4 ≤ t.length := by
  induction items generalizing o n with
  | nil => simp [tasksOf]
  | cons i is ih =>
    intro m hm
    cases i with
    | bytes l => exact ih _ _ m hm
    | align a al =>
      have := ih _ _ m hm
      simp only [padsOf, List.length_cons]
      omega
    | jump op t =>
      simp only [tasksOf, List.mem_cons] at hm
      rcases hm with rfl | hm
      · simp
      · exact ih _ _ m hm
    | mark => exact ih _ _ m hm

theorem pads_fresh (items : List Item) (o : Nat) (h : ∀ i al, Item.align i al ∈ items → 0 < al) : Fresh (padsOf o items) := by
  induction items generalizing o with
  | nil => intro p hp; simp [padsOf] at hp
  | cons i is ih =>
    have ih' := fun o => ih o (fun i al hi => h i al (List.mem_cons_of_mem _ hi))
    cases i with
    | align a al =>
      intro p hp
      simp only [padsOf, List.mem_cons] at hp
      rcases hp with rfl | hp
      · exact ⟨rfl, h a al (by simp)⟩
      · exact ih' _ p hp
    | bytes l => exact ih' _
    | jump op t => exact ih' _
    | mark => exact ih' _

/-! ### Memory -/

theorem memcpy_in (m : Mem) (a : Nat) (l : List Byte) (i : Nat) (h : i < l.length) : memcpy m a l (a + i) = l[i] := by
  unfold memcpy
  rw [dif_pos ⟨by omega, by omega⟩]
  congr 1
  omega

theorem memcpy_out (m : Mem) (a : Nat) (l : List Byte) (x : Nat) (h : x < a ∨ a + l.length ≤ x) : memcpy m a l x = m x := by
  unfold memcpy
  rw [dif_neg (by omega)]

theorem memcpy_append (m : Mem) (a : Nat) (l r : List Byte) (b : Nat) (hb : b = a + l.length) :
    memcpy (memcpy m a l) b r = memcpy m a (l ++ r) := by
  subst hb
  funext x
  by_cases h : x < a
  · rw [memcpy_out _ _ _ _ (by omega), memcpy_out _ _ _ _ (by omega), memcpy_out _ _ _ _ (by omega)]
  · obtain ⟨i, rfl⟩ : ∃ i, x = a + i := ⟨x - a, by omega⟩
    by_cases h1 : i < l.length
    · rw [memcpy_out _ _ _ _ (by omega), memcpy_in _ _ _ _ h1, memcpy_in _ _ _ _ (by simp; omega), List.getElem_append_left h1]
    · by_cases h2 : i < (l ++ r).length
      · rw [memcpy_in _ _ _ _ h2, List.getElem_append_right (by omega)]
        rw [show a + i = a + l.length + (i - l.length) by omega, memcpy_in _ _ _ _ (by simp at h2; omega)]
      · simp at h2
        rw [memcpy_out _ _ _ _ (by omega), memcpy_out _ _ _ _ (by omega), memcpy_out _ _ _ _ (by simp; omega)]

/-- The image before the distances of jumps are known. -/
def blank : Nat → Target → List Byte := fun _ _ => [0#8, 0#8, 0#8, 0#8]

theorem write_pads (code : List Byte) (b : Blk) (start : Nat) (items : List Item) (q tail : List Byte) (index padding : Nat) (m : Mem)
    (hc : code.drop (b.offset + index) = q ++ (raw items ++ tail)) (hn : b.bytes - index = q.length + (raw items).length)
    (ha : ∀ i al, Item.align i al ∈ items → 0 < al) :
    writePads code b start (padsOf (b.offset + index + q.length) items) index padding m =
      memcpy m (start + index + padding) (q ++ image blank (start + index + padding + q.length) items) := by
  induction items generalizing q index padding m with
  | nil =>
    simp only [padsOf, writePads, hc, hn, image, raw, List.flatMap_nil, List.nil_append, List.length_nil, Nat.add_zero, List.append_nil]
    rw [List.take_left']
    rfl
  | cons i is ih =>
    have ha' : ∀ i al, Item.align i al ∈ is → 0 < al := fun i al hi => ha i al (List.mem_cons_of_mem _ hi)
    rw [raw_cons] at hc hn
    cases i with
    | bytes l =>
      have := ih (q ++ l) index padding m (by simpa [Item.raw] using hc) (by simp [Item.raw] at hn ⊢; omega) ha'
      simp only [padsOf, image, Item.image, Item.behind]
      rw [List.length_append] at this
      rw [Nat.add_assoc, this]
      congr 1
      simp only [List.append_assoc]
      congr 3
      omega
    | jump op t =>
      have := ih (q ++ (op ++ [0#8, 0#8, 0#8, 0#8])) index padding m (by simpa [Item.raw] using hc) (by simp [Item.raw] at hn ⊢; omega) ha'
      simp only [padsOf, image, Item.image, Item.behind]
      rw [show (q ++ (op ++ [0#8, 0#8, 0#8, 0#8])).length = q.length + (op.length + 4) by simp] at this
      rw [Nat.add_assoc, this]
      congr 1
      simp only [List.append_assoc, blank]
      congr 4
      omega
    | align n al =>
      have h0 := ha n al (by simp)
      simp only [padsOf, writePads, image, Item.image, Item.behind]
      rw [show b.offset + index + q.length - b.offset - index = q.length by omega, hc, List.take_left' rfl, bump_eq h0]
      have := ih [] (index + q.length) (padding + gap al (start + (index + q.length) + padding + n))
        (memcpy (memcpy m (start + index + padding) q) (start + (index + q.length) + padding)
          (List.replicate (gap al (start + (index + q.length) + padding + n)) 0x90#8))
        (by
          rw [← Nat.add_assoc, ← List.drop_drop, hc, List.drop_left' rfl]
          simp [Item.raw])
        (by simp [Item.raw] at hn ⊢; omega) ha'
      simp only [List.length_nil, Nat.add_zero, List.nil_append] at this
      rw [show b.offset + (index + q.length) = b.offset + index + q.length by omega] at this
      rw [this, memcpy_append _ _ _ _ _ (by rw [List.length_replicate]; omega), memcpy_append _ _ _ _ _ (by omega)]
      rw [show start + (index + q.length) + padding = start + index + padding + q.length by omega]
      rw [show start + (index + q.length) + (padding + gap al (start + index + padding + q.length + n)) =
        start + index + padding + q.length + gap al (start + index + padding + q.length + n) by omega]
    | mark =>
      have := ih q index padding m (by simpa [Item.raw] using hc) (by simpa [Item.raw] using hn) ha'
      simp only [padsOf, image, Item.image, Item.behind]
      rw [this]
      rfl

theorem writePads_filled (code : List Byte) (b : Blk) (start offset pd : Nat) (pads : List Pad) (index padding : Nat) (m : Mem) :
    writePads code b start (filled start offset pd pads) index padding m = writePads code b start pads index padding m := by
  induction pads generalizing pd index padding m with
  | nil => rfl
  | cons p ps ih => simp only [filled, writePads, ih]

theorem writePads_congr (code : List Byte) (b c : Blk) (h1 : b.offset = c.offset) (h2 : b.bytes = c.bytes) (start : Nat) (pads : List Pad)
    (index padding : Nat) (m : Mem) : writePads code b start pads index padding m = writePads code c start pads index padding m := by
  induction pads generalizing index padding m with
  | nil => simp only [writePads, h1, h2]
  | cons p ps ih => simp only [writePads, ih, h1]

theorem image_length (disp : Nat → Target → List Byte) (hd : ∀ n t, (disp n t).length = 4) (pos : Nat) (items : List Item) :
    pos + (image disp pos items).length = after pos items := by
  induction items generalizing pos with
  | nil => rfl
  | cons i is ih =>
    rw [image, after_cons, List.length_append, ← ih]
    cases i <;> simp [Item.image, Item.behind, hd] <;> omega

/-- A block that has been placed. -/
def put (o start : Nat) (items : List Item) : Blk := ⟨o, (raw items).length, filled start o 0 (padsOf o items), some start⟩

/-- The place of a block's code among all the code. -/
def offsetOf (program : List (List Item)) (j : Nat) : Nat := ((program.take j).flatMap raw).length

theorem blocks_get (program : List (List Item)) (o j : Nat) :
    (blocksFrom o program)[j]? = program[j]?.map (blkOf (o + offsetOf program j)) := by
  induction program generalizing o j with
  | nil => simp [blocksFrom]
  | cons b bs ih =>
    cases j with
    | zero => simp [blocksFrom, offsetOf]
    | succ j =>
      rw [blocksFrom, List.getElem?_cons_succ, List.getElem?_cons_succ, ih]
      congr 2
      simp [offsetOf]
      omega

theorem resolve_blk (o start : Nat) (items : List Item) (ha : ∀ i al, Item.align i al ∈ items → 0 < al) :
    (blkOf o items).resolve start = (after start items, put o start items) := by
  unfold Blk.resolve blkOf put
  simp only [padding_first _ (pads_fresh items o ha)]
  have := after_eq items start o o 0 (Nat.le_refl _)
  simp only [Nat.sub_self, Nat.add_zero, Nat.add_sub_cancel_left] at this
  rw [this]

theorem startOf_cons (j start : Nat) (l : List (Nat × Nat)) (k : Nat) : startOf ((j, start) :: l) k = if j = k then start else startOf l k := by
  unfold startOf
  rw [List.find?_cons]
  by_cases h : j = k
  · simp [h]
  · rw [beq_eq_false_iff_ne.2 h, if_neg h]

theorem resolve_all (program : List (List Item)) (ha : Aligns program) (order : List Nat) (hn : order.Nodup) (blocks : List Blk) (start : Nat)
    (hb : ∀ j ∈ order, j < program.length ∧ blocks[j]? = some (blkOf (offsetOf program j) (program.getD j []))) :
    (resolveAll blocks start order).1 = total program start order ∧
    ∀ k, (resolveAll blocks start order).2[k]? =
      if k ∈ order then some (put (offsetOf program k) (startOf (placed program start order) k) (program.getD k [])) else blocks[k]? := by
  induction order generalizing blocks start with
  | nil => simp [resolveAll, total]
  | cons j order ih =>
    obtain ⟨hj, he⟩ := hb j (by simp)
    rw [List.nodup_cons] at hn
    have hm : program.getD j [] ∈ program := by
      rw [List.getD_eq_getElem?_getD, List.getElem?_eq_getElem hj]
      exact List.getElem_mem _
    rw [resolveAll, he]
    simp only [resolve_blk _ _ _ (ha _ hm)]
    have hl : j < blocks.length := by
      by_cases h : j < blocks.length
      · exact h
      · rw [List.getElem?_eq_none (by omega)] at he; cases he
    obtain ⟨h1, h2⟩ := ih hn.2 (blocks.set j (put (offsetOf program j) start (program.getD j []))) (after start (program.getD j []))
      (fun k hk => by
        have hjk : j ≠ k := fun h => hn.1 (h ▸ hk)
        rw [List.getElem?_set_ne hjk]
        exact hb k (List.mem_cons_of_mem _ hk))
    refine ⟨h1, fun k => ?_⟩
    rw [h2 k, placed, startOf_cons]
    by_cases hk : k ∈ order
    · have hjk : j ≠ k := fun h => hn.1 (h ▸ hk)
      rw [if_pos hk, if_pos (List.mem_cons_of_mem _ hk), if_neg hjk]
    · rw [if_neg hk]
      by_cases hjk : j = k
      · subst hjk
        rw [if_pos (by simp), if_pos rfl, List.getElem?_set_self hl]
      · rw [if_neg (by simp [hk]; exact fun h => hjk h.symm), List.getElem?_set_ne hjk]

/-- Memory with the images of blocks. -/
def paint (disp : Nat → Target → List Byte) (program : List (List Item)) : List (Nat × Nat) → Mem → Mem
  | [], m => m
  | (j, s) :: l, m => paint disp program l (memcpy m s (image disp s (program.getD j [])))

theorem code_drop (program : List (List Item)) (j : Nat) (hj : j < program.length) :
    ∃ tail, (program.flatMap raw).drop (offsetOf program j) = raw (program.getD j []) ++ tail := by
  refine ⟨(program.drop (j + 1)).flatMap raw, ?_⟩
  have h : program = program.take j ++ program.getD j [] :: program.drop (j + 1) := by
    rw [List.getD_eq_getElem?_getD, List.getElem?_eq_getElem hj, Option.getD_some, ← List.drop_eq_getElem_cons hj, List.take_append_drop]
  have e : program.flatMap raw = (program.take j).flatMap raw ++ (raw (program.getD j []) ++ (program.drop (j + 1)).flatMap raw) := by
    conv => lhs; rw [h]
    rw [List.flatMap_append, List.flatMap_cons]
  rw [e]
  exact List.drop_left' rfl

theorem write_blocks (program : List (List Item)) (ha : Aligns program) (blocks : List Blk) (l : List (Nat × Nat)) (m : Mem)
    (hb : ∀ p ∈ l, p.1 < program.length ∧ blocks[p.1]? = some (put (offsetOf program p.1) p.2 (program.getD p.1 []))) :
    writeBlocks (program.flatMap raw) blocks (l.map Prod.fst) m = paint blank program l m := by
  induction l generalizing m with
  | nil => rfl
  | cons p l ih =>
    obtain ⟨j, s⟩ := p
    obtain ⟨hj, he⟩ := hb (j, s) (by simp)
    have hm : program.getD j [] ∈ program := by
      rw [List.getD_eq_getElem?_getD, List.getElem?_eq_getElem hj]
      exact List.getElem_mem _
    obtain ⟨tail, ht⟩ := code_drop program j hj
    rw [List.map_cons, writeBlocks, he]
    simp only [paint, put, Option.getD_some, writePads_filled]
    rw [← ih _ (fun p hp => hb p (List.mem_cons_of_mem _ hp))]
    congr 1
    have := write_pads (program.flatMap raw) (put (offsetOf program j) s (program.getD j [])) s (program.getD j []) [] tail 0 0 m
      (by simpa [put] using ht) (by simp [put]) (ha _ hm)
    simp only [List.length_nil, Nat.add_zero, List.nil_append, put] at this
    exact this

/-! ### Promises -/

theorem value_eq (blocks : List Blk) (m : Mark) (o start : Nat) (items : List Item) (hb : blocks[m.block]? = some (put o start items))
    (hl : m.limit ≤ (padsOf o items).length) : value blocks m = some (at' start o (padsOf o items) m, blocks) := by
  unfold value
  rw [hb]
  simp only [put, padding_again _ _ _ _ hl, at']
  have : blocks.set m.block (put o start items) = blocks := by
    obtain ⟨h1, h2⟩ := List.getElem?_eq_some_iff.1 hb
    rw [← h2]
    exact List.set_getElem_self h1
  rw [show (⟨o, (raw items).length, filled start o 0 (padsOf o items), some start⟩ : Blk) = put o start items from rfl, this]

/-- The place of a promise. -/
def posOf (program : List (List Item)) (starts : Nat → Nat) (m : Mark) : Nat :=
  at' (starts m.block) (offsetOf program m.block) (padsOf (offsetOf program m.block) (program.getD m.block [])) m

theorem getD_mid (pre : List (List Item)) (b : List Item) (bs : List (List Item)) : (pre ++ b :: bs).getD pre.length [] = b := by
  rw [List.getD_eq_getElem?_getD, List.getElem?_append_right (Nat.le_refl _)]
  simp

theorem offset_mid (pre : List (List Item)) (bs : List (List Item)) : offsetOf (pre ++ bs) pre.length = (pre.flatMap raw).length := by
  unfold offsetOf
  rw [List.take_left' rfl]

theorem labels_eq (starts : Nat → Nat) (bs pre : List (List Item)) :
    (marksFrom pre.length (pre.flatMap raw).length bs).map (posOf (pre ++ bs) starts) = labels starts pre.length bs := by
  induction bs generalizing pre with
  | nil => rfl
  | cons b bs ih =>
    rw [marksFrom, labels, List.map_append]
    have e := ih (pre ++ [b])
    simp only [List.append_assoc, List.cons_append, List.nil_append, List.length_append, List.length_cons, List.length_nil,
      List.flatMap_append, List.flatMap_cons, List.flatMap_nil, List.append_nil] at e
    rw [e]
    congr 1
    have := marks_eq b (starts pre.length) (pre.flatMap raw).length (pre.flatMap raw).length pre.length [] (Nat.le_refl _)
    simp only [List.length_nil, List.nil_append, Nat.sub_self, Nat.add_zero, cum] at this
    rw [← this]
    apply List.map_congr_left
    intro m hm
    have hbk := (marks_fields b _ _ _ m hm).1
    unfold posOf
    rw [hbk, getD_mid, offset_mid]

theorem jumps_eq (starts : Nat → Nat) (bs pre : List (List Item)) :
    (tasksFrom pre.length (pre.flatMap raw).length bs).map (fun t => (posOf (pre ++ bs) starts t.instr, t.length - 4, t.target)) =
      jumps starts pre.length bs := by
  induction bs generalizing pre with
  | nil => rfl
  | cons b bs ih =>
    rw [tasksFrom, jumps, List.map_append]
    have e := ih (pre ++ [b])
    simp only [List.append_assoc, List.cons_append, List.nil_append, List.length_append, List.length_cons, List.length_nil,
      List.flatMap_append, List.flatMap_cons, List.flatMap_nil, List.append_nil] at e
    rw [e]
    congr 1
    have := tasks_eq b (starts pre.length) (pre.flatMap raw).length (pre.flatMap raw).length pre.length [] (Nat.le_refl _)
    simp only [List.length_nil, List.nil_append, Nat.sub_self, Nat.add_zero, cum] at this
    rw [← this]
    apply List.map_congr_left
    intro m hm
    have hbk := (tasks_fields b _ _ _ m hm).1
    unfold posOf
    rw [hbk, getD_mid, offset_mid]

theorem marksFrom_fields (bs pre : List (List Item)) :
    ∀ m ∈ marksFrom pre.length (pre.flatMap raw).length bs, m.block < (pre ++ bs).length ∧
      m.limit ≤ (padsOf (offsetOf (pre ++ bs) m.block) ((pre ++ bs).getD m.block [])).length := by
  induction bs generalizing pre with
  | nil => simp [marksFrom]
  | cons b bs ih =>
    intro m hm
    rw [marksFrom, List.mem_append] at hm
    rcases hm with hm | hm
    · obtain ⟨h1, h2, h3⟩ := marks_fields b _ _ _ m hm
      rw [h1, getD_mid, offset_mid]
      simp only [List.length_append, List.length_cons]
      omega
    · have e := ih (pre ++ [b]) m (by
        simp only [List.length_append, List.length_cons, List.length_nil, List.flatMap_append, List.flatMap_cons, List.flatMap_nil,
          List.append_nil]
        exact hm)
      simp only [List.append_assoc, List.cons_append, List.nil_append] at e
      exact e

theorem tasksFrom_fields (bs pre : List (List Item)) :
    ∀ t ∈ tasksFrom pre.length (pre.flatMap raw).length bs, t.instr.block < (pre ++ bs).length ∧
      t.instr.limit ≤ (padsOf (offsetOf (pre ++ bs) t.instr.block) ((pre ++ bs).getD t.instr.block [])).length ∧ 4 ≤ t.length := by
  induction bs generalizing pre with
  | nil => simp [tasksFrom]
  | cons b bs ih =>
    intro m hm
    rw [tasksFrom, List.mem_append] at hm
    rcases hm with hm | hm
    · obtain ⟨h1, h2, h3⟩ := tasks_fields b _ _ _ m hm
      rw [h1, getD_mid, offset_mid]
      simp only [List.length_append, List.length_cons]
      omega
    · have e := ih (pre ++ [b]) m (by
        simp only [List.length_append, List.length_cons, List.length_nil, List.flatMap_append, List.flatMap_cons, List.flatMap_nil,
          List.append_nil]
        exact hm)
      simp only [List.append_assoc, List.cons_append, List.nil_append] at e
      exact e

/-! ### Distances -/

def dist4 (dst : BitVec 64) (ls : List Nat) : Nat → Target → List Byte := fun pos t => append4 (distance dst ls pos t)

def patch (dst : BitVec 64) (ls : List Nat) (m : Mem) (j : Nat × Nat × Target) : Mem :=
  memcpy m (j.1 + j.2.1) (dist4 dst ls (j.1 + (j.2.1 + 4)) j.2.2)

def Fits (dst : BitVec 64) (ls : List Nat) (js : List (Nat × Nat × Target)) : Prop :=
  ∀ j ∈ js, fitsInInt32 (distance dst ls (j.1 + (j.2.1 + 4)) j.2.2) = true

/-- Labels that are used are there. -/
def Known (ls : List Nat) (js : List (Nat × Nat × Target)) : Prop := ∀ j ∈ js, ∀ k, j.2.2 = .label k → k < ls.length

theorem target_eq (dst : BitVec 64) (marks : List Mark) (blocks : List Blk) (pos : Mark → Nat)
    (hv : ∀ m ∈ marks, value blocks m = some (pos m, blocks)) (t : Target) (hk : ∀ k, t = .label k → k < (marks.map pos).length) :
    t.value dst marks blocks = some (t.address dst (marks.map pos), blocks) := by
  cases t with
  | addr a => rfl
  | label k =>
    have hk := hk k rfl
    rw [List.length_map] at hk
    simp only [Target.value, Target.address, List.getElem?_eq_getElem hk, hv _ (List.getElem_mem hk), Option.map_some]
    simp [List.getD_eq_getElem?_getD, hk]

theorem perform_all (dst : BitVec 64) (marks : List Mark) (blocks : List Blk) (pos : Mark → Nat)
    (hv : ∀ m ∈ marks, value blocks m = some (pos m, blocks)) (ts : List Task)
    (ht : ∀ t ∈ ts, value blocks t.instr = some (pos t.instr, blocks) ∧ 4 ≤ t.length)
    (hk : Known (marks.map pos) (ts.map fun t => (pos t.instr, t.length - 4, t.target))) (m : Mem) :
    (Fits dst (marks.map pos) (ts.map fun t => (pos t.instr, t.length - 4, t.target)) →
      performAll dst marks ts (blocks, m) =
        some (blocks, (ts.map fun t => (pos t.instr, t.length - 4, t.target)).foldl (patch dst (marks.map pos)) m)) ∧
    (¬ Fits dst (marks.map pos) (ts.map fun t => (pos t.instr, t.length - 4, t.target)) → performAll dst marks ts (blocks, m) = none) := by
  induction ts generalizing m with
  | nil => exact ⟨fun _ => rfl, fun h => absurd (fun j hj => by simp at hj) h⟩
  | cons t ts ih =>
    obtain ⟨h1, h2⟩ := ht t (by simp)
    have ih' := fun m => ih (fun t h => ht t (List.mem_cons_of_mem _ h)) (fun j hj => hk j (by simp only [List.map_cons, List.mem_cons]; exact Or.inr hj)) m
    have hkt := hk (pos t.instr, t.length - 4, t.target) (by simp)
    have e : t.perform dst marks (blocks, m) =
        if fitsInInt32 (distance dst (marks.map pos) (pos t.instr + (t.length - 4 + 4)) t.target) then
          some (blocks, patch dst (marks.map pos) m (pos t.instr, t.length - 4, t.target)) else none := by
      unfold Task.perform
      simp only [h1, target_eq dst marks blocks pos hv t.target hkt]
      have ev : t.target.address dst (marks.map pos) - (dst + BitVec.ofNat 64 (pos t.instr)) - BitVec.ofNat 64 t.length =
          distance dst (marks.map pos) (pos t.instr + (t.length - 4 + 4)) t.target := by
        unfold distance
        rw [Nat.sub_add_cancel h2, BitVec.ofNat_add, ← BitVec.add_assoc]
        simp only [BitVec.sub_eq_add_neg, BitVec.neg_add, BitVec.add_assoc]
      rw [ev]
      have ea : pos t.instr + t.length - 4 = pos t.instr + (t.length - 4) := by omega
      rw [ea]
      rfl
    rw [performAll, e]
    by_cases hf : fitsInInt32 (distance dst (marks.map pos) (pos t.instr + (t.length - 4 + 4)) t.target) = true
    · rw [if_pos hf]
      constructor
      · intro h
        exact (ih' _).1 (fun j hj => h j (by simp only [List.map_cons, List.mem_cons]; exact Or.inr hj))
      · intro h
        refine (ih' _).2 (fun h' => h (fun j hj => ?_))
        simp only [List.map_cons, List.mem_cons] at hj
        rcases hj with rfl | hj
        · exact hf
        · exact h' j hj
    · rw [if_neg hf]
      exact ⟨fun h => absurd (h (pos t.instr, t.length - 4, t.target) (by simp)) hf, fun _ => rfl⟩

theorem patches_eq (dst : BitVec 64) (ls : List Nat) (js : List (Nat × Nat × Target)) (m g : Mem)
    (h1 : ∀ j ∈ js, ∀ i, i < 4 → some (g (j.1 + j.2.1 + i)) = (dist4 dst ls (j.1 + (j.2.1 + 4)) j.2.2)[i]?)
    (h2 : ∀ x, (∃ j ∈ js, j.1 + j.2.1 ≤ x ∧ x < j.1 + j.2.1 + 4) ∨ m x = g x) : js.foldl (patch dst ls) m = g := by
  induction js generalizing m with
  | nil =>
    funext x
    rcases h2 x with ⟨j, hj, _⟩ | h
    · simp at hj
    · exact h
  | cons j js ih =>
    rw [List.foldl_cons]
    refine ih _ (fun j hj => h1 j (List.mem_cons_of_mem _ hj)) (fun x => ?_)
    by_cases hx : j.1 + j.2.1 ≤ x ∧ x < j.1 + j.2.1 + 4
    · right
      obtain ⟨i, rfl⟩ : ∃ i, x = j.1 + j.2.1 + i := ⟨x - (j.1 + j.2.1), by omega⟩
      have hl : i < (dist4 dst ls (j.1 + (j.2.1 + 4)) j.2.2).length := by show i < 4; omega
      have := h1 j (by simp) i (by omega)
      rw [List.getElem?_eq_getElem hl] at this
      rw [Option.some.inj this]
      exact memcpy_in _ _ _ i hl
    · rcases h2 x with ⟨k, hk, hx'⟩ | h
      · rcases List.mem_cons.1 hk with rfl | hk
        · exact absurd hx' hx
        · exact Or.inl ⟨k, hk, hx'⟩
      · right
        rw [← h]
        exact memcpy_out _ _ _ _ (by show x < _ ∨ _ + 4 ≤ x; omega)

theorem jump_in (disp : Nat → Target → List Byte) (hd : ∀ n t, (disp n t).length = 4) (items : List Item) (pos : Nat) :
    ∀ j ∈ jumpsIn pos items, pos ≤ j.1 ∧ ∀ i, i < 4 → (image disp pos items)[j.1 - pos + j.2.1 + i]? = (disp (j.1 + (j.2.1 + 4)) j.2.2)[i]? := by
  induction items generalizing pos with
  | nil => intro j hj; simp [jumpsIn] at hj
  | cons it is ih =>
    have rest : ∀ k : Nat, (Item.image disp pos it).length = k → it.behind pos = pos + k → ∀ j ∈ jumpsIn (it.behind pos) is,
        pos ≤ j.1 ∧ ∀ i, i < 4 → (image disp pos (it :: is))[j.1 - pos + j.2.1 + i]? = (disp (j.1 + (j.2.1 + 4)) j.2.2)[i]? := by
      intro k hk hb j hj
      obtain ⟨h1, h2⟩ := ih (it.behind pos) j hj
      refine ⟨by omega, fun i hi => ?_⟩
      rw [image, List.getElem?_append_right (by omega), ← h2 i hi]
      congr 1
      omega
    cases it with
    | bytes l => exact rest l.length rfl rfl
    | align n al => exact rest (gap al (pos + n)) (by simp [Item.image]) rfl
    | mark => exact rest 0 rfl rfl
    | jump op t =>
      intro j hj
      rw [jumpsIn, List.mem_cons] at hj
      rcases hj with rfl | hj
      · refine ⟨Nat.le_refl _, fun i hi => ?_⟩
        have := hd (pos + (op.length + 4)) t
        simp only [image, Item.image, Nat.sub_self, Nat.zero_add]
        rw [List.getElem?_append_left (by simp; omega), List.getElem?_append_right (by omega), Nat.add_sub_cancel_left]
      · exact rest (op.length + 4) (by simp [Item.image, hd]) rfl j hj

theorem image_differs (d d' : Nat → Target → List Byte) (hd : ∀ n t, (d n t).length = 4) (hd' : ∀ n t, (d' n t).length = 4)
    (items : List Item) (pos x : Nat) : (image d pos items)[x]? = (image d' pos items)[x]? ∨
      ∃ j ∈ jumpsIn pos items, j.1 + j.2.1 ≤ pos + x ∧ pos + x < j.1 + j.2.1 + 4 := by
  induction items generalizing pos x with
  | nil => left; rfl
  | cons it is ih =>
    have rest : Item.image d pos it = Item.image d' pos it → it.behind pos = pos + (Item.image d pos it).length →
        jumpsIn pos (it :: is) = jumpsIn (it.behind pos) is →
        (image d pos (it :: is))[x]? = (image d' pos (it :: is))[x]? ∨
          ∃ j ∈ jumpsIn pos (it :: is), j.1 + j.2.1 ≤ pos + x ∧ pos + x < j.1 + j.2.1 + 4 := by
      intro h1 h2 h3
      rw [image, image, ← h1, h3]
      by_cases hx : x < (Item.image d pos it).length
      · left
        rw [List.getElem?_append_left hx, List.getElem?_append_left hx]
      · rw [List.getElem?_append_right (by omega), List.getElem?_append_right (by omega)]
        have := ih (it.behind pos) (x - (Item.image d pos it).length)
        rw [h2, show pos + (Item.image d pos it).length + (x - (Item.image d pos it).length) = pos + x by omega, ← h2] at this
        exact this
    cases it with
    | bytes l => exact rest rfl rfl rfl
    | align n al => exact rest rfl (by simp [Item.behind, Item.image]) rfl
    | mark => exact rest rfl rfl rfl
    | jump op t =>
      rw [jumpsIn]
      by_cases h1 : x < op.length
      · left
        simp only [image, Item.image, List.append_assoc]
        rw [List.getElem?_append_left h1, List.getElem?_append_left h1]
      · by_cases h2 : x < op.length + 4
        · right
          exact ⟨_, List.mem_cons_self .., by show pos + op.length ≤ pos + x; omega, by show pos + x < pos + op.length + 4; omega⟩
        · have l1 : (Item.image d pos (.jump op t)).length = op.length + 4 := by simp [Item.image, hd]
          have l2 : (Item.image d' pos (.jump op t)).length = op.length + 4 := by simp [Item.image, hd']
          rw [image, image, List.getElem?_append_right (by omega), List.getElem?_append_right (by omega), l1, l2]
          rcases ih (Item.behind pos (.jump op t)) (x - (op.length + 4)) with h | ⟨j, hj, h⟩
          · exact Or.inl h
          · right
            refine ⟨j, List.mem_cons_of_mem _ hj, ?_⟩
            simp only [Item.behind] at h
            omega

/-! ### Blocks in memory -/

theorem after_ge (items : List Item) (pos : Nat) : pos ≤ after pos items := by
  induction items generalizing pos with
  | nil => exact Nat.le_refl _
  | cons i is ih =>
    rw [after_cons]
    have : pos ≤ i.behind pos := by cases i <;> simp only [Item.behind] <;> omega
    exact Nat.le_trans this (ih _)

theorem paint_below (disp : Nat → Target → List Byte) (program : List (List Item)) (order : List Nat) (start : Nat) (m : Mem) (x : Nat)
    (hx : x < start) : paint disp program (placed program start order) m x = m x := by
  induction order generalizing start m with
  | nil => rfl
  | cons j order ih =>
    rw [placed, paint, ih _ _ (Nat.lt_of_lt_of_le hx (after_ge _ _))]
    exact memcpy_out _ _ _ _ (Or.inl hx)

theorem paint_in (disp : Nat → Target → List Byte) (hd : ∀ n t, (disp n t).length = 4) (program : List (List Item)) (order : List Nat) (start : Nat)
    (m : Mem) : ∀ p ∈ placed program start order, ∀ i (h : i < (image disp p.2 (program.getD p.1 [])).length),
      paint disp program (placed program start order) m (p.2 + i) = (image disp p.2 (program.getD p.1 []))[i] := by
  induction order generalizing start m with
  | nil => intro p hp; simp [placed] at hp
  | cons j order ih =>
    intro p hp i hi
    rw [placed, List.mem_cons] at hp
    rw [placed, paint]
    rcases hp with rfl | hp
    · have := image_length disp hd start (program.getD j [])
      rw [paint_below _ _ _ _ _ _ (by simp only at hi ⊢; omega)]
      exact memcpy_in _ _ _ _ hi
    · exact ih _ _ p hp i hi

theorem total_ge (program : List (List Item)) (order : List Nat) (start : Nat) : start ≤ total program start order := by
  induction order generalizing start with
  | nil => exact Nat.le_refl _
  | cons j order ih => exact Nat.le_trans (after_ge _ _) (ih _)

theorem paint_out (disp : Nat → Target → List Byte) (hd : ∀ n t, (disp n t).length = 4) (program : List (List Item)) (order : List Nat) (start : Nat)
    (m : Mem) (x : Nat) (hx : total program start order ≤ x) : paint disp program (placed program start order) m x = m x := by
  induction order generalizing start m with
  | nil => rfl
  | cons j order ih =>
    rw [placed, paint, ih _ _ hx]
    have := image_length disp hd start (program.getD j [])
    have := total_ge program order (after start (program.getD j []))
    exact memcpy_out _ _ _ _ (Or.inr (by rw [total] at hx; omega))

theorem covered (disp : Nat → Target → List Byte) (hd : ∀ n t, (disp n t).length = 4) (program : List (List Item)) (order : List Nat) (start x : Nat)
    (h1 : start ≤ x) (h2 : x < total program start order) :
    ∃ p ∈ placed program start order, p.2 ≤ x ∧ x - p.2 < (image disp p.2 (program.getD p.1 [])).length := by
  induction order generalizing start with
  | nil => rw [total] at h2; omega
  | cons j order ih =>
    by_cases h : x < after start (program.getD j [])
    · have := image_length disp hd start (program.getD j [])
      exact ⟨(j, start), by simp [placed], h1, by simp only; omega⟩
    · obtain ⟨p, hp, h⟩ := ih (after start (program.getD j [])) (by omega) h2
      exact ⟨p, by rw [placed]; exact List.mem_cons_of_mem _ hp, h⟩

theorem placed_fst (program : List (List Item)) (order : List Nat) (start : Nat) : (placed program start order).map Prod.fst = order := by
  induction order generalizing start with
  | nil => rfl
  | cons j order ih => rw [placed, List.map_cons, ih]

theorem placed_start (program : List (List Item)) (order : List Nat) (hn : order.Nodup) (start : Nat) :
    ∀ p ∈ placed program start order, startOf (placed program start order) p.1 = p.2 := by
  induction order generalizing start with
  | nil => intro p hp; simp [placed] at hp
  | cons j order ih =>
    intro p hp
    rw [List.nodup_cons] at hn
    rw [placed, startOf_cons]
    rw [placed, List.mem_cons] at hp
    rcases hp with rfl | hp
    · simp
    · have : p.1 ∈ order := by
        rw [← placed_fst program order (after start (program.getD j []))]
        exact List.mem_map_of_mem hp
      rw [if_neg (fun h : j = p.1 => hn.1 (h ▸ this))]
      exact ih hn.2 _ p hp

theorem jumps_mem (starts : Nat → Nat) (bs : List (List Item)) (j : Nat) (x : Nat × Nat × Target) :
    x ∈ jumps starts j bs ↔ ∃ k, k < bs.length ∧ x ∈ jumpsIn (starts (j + k)) (bs.getD k []) := by
  induction bs generalizing j with
  | nil => simp [jumps]
  | cons b bs ih =>
    rw [jumps, List.mem_append, ih]
    constructor
    · rintro (h | ⟨k, hk, h⟩)
      · exact ⟨0, by simp, by simpa using h⟩
      · exact ⟨k + 1, by simp; omega, by rw [show j + (k + 1) = j + 1 + k by omega]; simpa using h⟩
    · rintro ⟨k, hk, h⟩
      cases k with
      | zero => left; simpa using h
      | succ k =>
        right
        exact ⟨k, by simpa using hk, by rw [show j + 1 + k = j + (k + 1) by omega]; simpa using h⟩

/-! ### The theorems -/

/-- The blocks are all resolved, each once. -/
def Complete (program : List (List Item)) (order : List Nat) : Prop := order.Nodup ∧ ∀ j, j ∈ order ↔ j < program.length

theorem assembled (program : List (List Item)) (ha : Aligns program) (order : List Nat) (ho : Complete program order) (dst : BitVec 64) (m : Mem)
    (hk : Known (labels (startOf (placed program 0 order)) 0 program) (jumps (startOf (placed program 0 order)) 0 program)) :
    let starts := startOf (placed program 0 order)
    let ls := labels starts 0 program
    ∃ blocks, (Asm.new.compile program).marks.map (value blocks) = ls.map (fun n => some (n, blocks)) ∧
      (Fits dst ls (jumps starts 0 program) →
        assemble program order dst m = some (total program 0 order, blocks, paint (dist4 dst ls) program (placed program 0 order) m)) ∧
      (¬ Fits dst ls (jumps starts 0 program) → assemble program order dst m = none) := by
  intro starts ls
  obtain ⟨c1, c2, c3, c4⟩ := compile_eq program Asm.new rfl
  change (Asm.new.compile program).code = program.flatMap raw at c1
  change (Asm.new.compile program).blocks = blocksFrom 0 program at c2
  change (Asm.new.compile program).marks = marksFrom 0 0 program at c3
  replace c4 : (Asm.new.compile program).tasks = (tasksFrom 0 0 program).reverse := by
    rw [c4]
    exact List.append_nil _
  have hb : ∀ j ∈ order, j < program.length ∧ (blocksFrom 0 program)[j]? = some (blkOf (offsetOf program j) (program.getD j [])) := by
    intro j hj
    have hj' := (ho.2 j).1 hj
    refine ⟨hj', ?_⟩
    rw [blocks_get, List.getElem?_eq_getElem hj', List.getD_eq_getElem?_getD, List.getElem?_eq_getElem hj']
    simp
  obtain ⟨r1, r2⟩ := resolve_all program ha order ho.1 (blocksFrom 0 program) 0 hb
  generalize hB : (resolveAll (blocksFrom 0 program) 0 order).2 = blocks at r2
  have hput : ∀ j, j < program.length → blocks[j]? = some (put (offsetOf program j) (starts j) (program.getD j [])) := by
    intro j hj
    rw [r2, if_pos ((ho.2 j).2 hj)]
  have hv : ∀ mk ∈ marksFrom 0 0 program, value blocks mk = some (posOf program starts mk, blocks) := by
    intro mk hm
    obtain ⟨h1, h2⟩ := marksFrom_fields program [] mk hm
    exact value_eq blocks mk _ _ _ (hput _ h1) h2
  have hls : (marksFrom 0 0 program).map (posOf program starts) = ls := labels_eq starts program []
  have hjs : (tasksFrom 0 0 program).map (fun t => (posOf program starts t.instr, t.length - 4, t.target)) = jumps starts 0 program :=
    jumps_eq starts program []
  have ht : ∀ t ∈ (tasksFrom 0 0 program).reverse, value blocks t.instr = some (posOf program starts t.instr, blocks) ∧ 4 ≤ t.length := by
    intro t hm
    obtain ⟨h1, h2, h3⟩ := tasksFrom_fields program [] t (List.mem_reverse.1 hm)
    exact ⟨value_eq blocks t.instr _ _ _ (hput _ h1) h2, h3⟩
  have hw : writeBlocks (program.flatMap raw) blocks order m = paint blank program (placed program 0 order) m := by
    have := write_blocks program ha blocks (placed program 0 order) m (fun p hp => by
      have h1 : p.1 ∈ order := by
        rw [← placed_fst program order 0]
        exact List.mem_map_of_mem hp
      have h2 := (ho.2 _).1 h1
      refine ⟨h2, ?_⟩
      rw [hput _ h2]
      show some (put _ (startOf _ p.1) _) = _
      rw [placed_start program order ho.1 0 p hp])
    rwa [placed_fst] at this
  have hjr : ((tasksFrom 0 0 program).reverse.map fun t => (posOf program starts t.instr, t.length - 4, t.target)) = (jumps starts 0 program).reverse := by
    rw [List.map_reverse, hjs]
  have hpf := perform_all dst (marksFrom 0 0 program) blocks (posOf program starts) hv (tasksFrom 0 0 program).reverse ht (by
    rw [hls, hjr]
    intro j hj
    exact hk j (List.mem_reverse.1 hj)) (paint blank program (placed program 0 order) m)
  rw [hls, hjr] at hpf
  have hfr : Fits dst ls (jumps starts 0 program).reverse ↔ Fits dst ls (jumps starts 0 program) := by
    constructor
    · intro h j hj; exact h j (List.mem_reverse.2 hj)
    · intro h j hj; exact h j (List.mem_reverse.1 hj)
  have d0 : ∀ n t, (blank n t).length = 4 := fun _ _ => rfl
  have d1 : ∀ n t, (dist4 dst ls n t).length = 4 := fun _ _ => rfl
  have hpatch : (jumps starts 0 program).reverse.foldl (patch dst ls) (paint blank program (placed program 0 order) m) =
      paint (dist4 dst ls) program (placed program 0 order) m := by
    refine patches_eq dst ls _ _ _ (fun j hj i hi => ?_) (fun x => ?_)
    · obtain ⟨k, hk, hj⟩ := (jumps_mem starts program 0 j).1 (List.mem_reverse.1 hj)
      rw [Nat.zero_add] at hj
      obtain ⟨p, hp, rfl⟩ : ∃ p ∈ placed program 0 order, p.1 = k := by
        have : k ∈ (placed program 0 order).map Prod.fst := by
          rw [placed_fst]
          exact (ho.2 k).2 hk
        obtain ⟨p, h1, h2⟩ := List.mem_map.1 this
        exact ⟨p, h1, h2⟩
      have hs : starts p.1 = p.2 := placed_start program order ho.1 0 p hp
      rw [hs] at hj
      obtain ⟨g1, g2⟩ := jump_in (dist4 dst ls) d1 _ p.2 j hj
      have g3 := g2 i hi
      have hl : i < (dist4 dst ls (j.1 + (j.2.1 + 4)) j.2.2).length := hi
      rw [List.getElem?_eq_getElem hl] at g3
      obtain ⟨g4, g5⟩ := List.getElem?_eq_some_iff.1 g3
      have := paint_in (dist4 dst ls) d1 program order 0 m p hp (j.1 - p.2 + j.2.1 + i) g4
      rw [show p.2 + (j.1 - p.2 + j.2.1 + i) = j.1 + j.2.1 + i by omega] at this
      rw [this, g5, List.getElem?_eq_getElem hl]
    · by_cases hx : x < total program 0 order
      · obtain ⟨p, hp, h1, h2⟩ := covered blank d0 program order 0 x (Nat.zero_le _) hx
        have hk : p.1 < program.length := by
          refine (ho.2 _).1 ?_
          rw [← placed_fst program order 0]
          exact List.mem_map_of_mem hp
        have hs : starts p.1 = p.2 := placed_start program order ho.1 0 p hp
        have l0 := image_length blank d0 p.2 (program.getD p.1 [])
        have l1 := image_length (dist4 dst ls) d1 p.2 (program.getD p.1 [])
        rcases image_differs blank (dist4 dst ls) d0 d1 (program.getD p.1 []) p.2 (x - p.2) with h | ⟨j, hj, h⟩
        · right
          have e0 := paint_in blank d0 program order 0 m p hp (x - p.2) h2
          have e1 := paint_in (dist4 dst ls) d1 program order 0 m p hp (x - p.2) (by omega)
          rw [show p.2 + (x - p.2) = x by omega] at e0 e1
          rw [List.getElem?_eq_getElem h2, List.getElem?_eq_getElem (by omega)] at h
          rw [e0, e1, Option.some.inj h]
        · left
          refine ⟨j, List.mem_reverse.2 ((jumps_mem starts program 0 j).2 ⟨p.1, hk, ?_⟩), by omega⟩
          rw [Nat.zero_add, hs]
          exact hj
      · right
        rw [paint_out blank d0 _ _ _ _ _ (by omega), paint_out (dist4 dst ls) d1 _ _ _ _ _ (by omega)]
  refine ⟨blocks, ?_, ?_, ?_⟩
  · rw [c3, ← hls, List.map_map]
    exact List.map_congr_left hv
  · intro hf
    unfold assemble
    simp only [c1, c2, c3, c4]
    rw [hB, hw, hpf.1 (hfr.2 hf), hpatch, r1]
    rfl
  · intro hf
    unfold assemble
    simp only [c1, c2, c3, c4]
    rw [hB, hw, hpf.2 (fun h => hf (hfr.1 h))]
    rfl

/-- **Layout.**  If the assembler puts a program into memory, its blocks lie one behind the other in the given order, in each of them
the instructions and the padding in order, with jumps whose distances lead to the places of the labels; nothing behind the code is
written; and the labels have the places that the specification says. -/
theorem layout_ok (program : List (List Item)) (ha : Aligns program) (order : List Nat) (ho : Complete program order) (dst : BitVec 64) (m : Mem)
    (hk : Known (labels (startOf (placed program 0 order)) 0 program) (jumps (startOf (placed program 0 order)) 0 program))
    {n : Nat} {blocks : List Blk} {m' : Mem} (h : assemble program order dst m = some (n, blocks, m')) :
    let ls := labels (startOf (placed program 0 order)) 0 program
    n = total program 0 order ∧
    (∀ p ∈ placed program 0 order, ∀ i b,
      (image (fun pos t => append4 (distance dst ls pos t)) p.2 (program.getD p.1 []))[i]? = some b → m' (p.2 + i) = b) ∧
    (∀ x, n ≤ x → m' x = m x) ∧
    (Asm.new.compile program).marks.map (value blocks) = ls.map (fun n => some (n, blocks)) := by
  intro ls
  obtain ⟨blocks', h1, h2, h3⟩ := assembled program ha order ho dst m hk
  have hf : Fits dst ls (jumps (startOf (placed program 0 order)) 0 program) :=
    Classical.byContradiction fun hn => by simp [h3 hn] at h
  rw [h2 hf] at h
  simp only [Option.some.injEq, Prod.mk.injEq] at h
  obtain ⟨rfl, rfl, rfl⟩ := h
  refine ⟨rfl, fun p hp i b hb => ?_, fun x hx => ?_, h1⟩
  · obtain ⟨g1, g2⟩ := List.getElem?_eq_some_iff.1 hb
    exact (paint_in (dist4 dst ls) (fun _ _ => rfl) program order 0 m p hp i g1).trans g2
  · exact paint_out (dist4 dst ls) (fun _ _ => rfl) _ _ _ _ _ hx

/-- It does so exactly if all distances fit into 32 bits. -/
theorem layout_defined (program : List (List Item)) (ha : Aligns program) (order : List Nat) (ho : Complete program order) (dst : BitVec 64) (m : Mem)
    (hk : Known (labels (startOf (placed program 0 order)) 0 program) (jumps (startOf (placed program 0 order)) 0 program)) :
    (assemble program order dst m).isSome = true ↔
      ∀ j ∈ jumps (startOf (placed program 0 order)) 0 program,
        -(2 ^ 31) ≤ (distance dst (labels (startOf (placed program 0 order)) 0 program) (j.1 + (j.2.1 + 4)) j.2.2).toInt ∧
          (distance dst (labels (startOf (placed program 0 order)) 0 program) (j.1 + (j.2.1 + 4)) j.2.2).toInt < 2 ^ 31 := by
  obtain ⟨blocks', h1, h2, h3⟩ := assembled program ha order ho dst m hk
  have e : Fits dst (labels (startOf (placed program 0 order)) 0 program) (jumps (startOf (placed program 0 order)) 0 program) ↔ _ :=
    forall₂_congr fun j _ => fits32_iff (distance dst (labels (startOf (placed program 0 order)) 0 program) (j.1 + (j.2.1 + 4)) j.2.2)
  rw [← e]
  constructor
  · intro h
    exact Classical.byContradiction fun hn => by simp [h3 hn] at h
  · intro h
    rw [h2 h]
    rfl

/-- The blocks do not overlap, and there is nothing between them: each byte of the code is in exactly one. -/
theorem layout_disjoint (program : List (List Item)) (order : List Nat) (start x : Nat) (h1 : start ≤ x) (h2 : x < total program start order) :
    ∃ p ∈ placed program start order, (p.2 ≤ x ∧ x < after p.2 (program.getD p.1 [])) ∧
      ∀ q ∈ placed program start order, q.2 ≤ x ∧ x < after q.2 (program.getD q.1 []) → q = p := by
  have ge : ∀ (order : List Nat) (start : Nat), ∀ p ∈ placed program start order, start ≤ p.2 := by
    intro order
    induction order with
    | nil => intro start p hp; simp [placed] at hp
    | cons j order ih =>
      intro start p hp
      rw [placed, List.mem_cons] at hp
      rcases hp with rfl | hp
      · exact Nat.le_refl _
      · exact Nat.le_trans (after_ge _ _) (ih _ p hp)
  induction order generalizing start with
  | nil => rw [total] at h2; omega
  | cons j order ih =>
    by_cases h : x < after start (program.getD j [])
    · refine ⟨(j, start), by simp [placed], ⟨h1, h⟩, fun q hq hx => ?_⟩
      rw [placed, List.mem_cons] at hq
      rcases hq with rfl | hq
      · rfl
      · have := ge _ _ q hq
        omega
    · obtain ⟨p, hp, h, hu⟩ := ih (after start (program.getD j [])) (by omega) h2
      refine ⟨p, by rw [placed]; exact List.mem_cons_of_mem _ hp, h, fun q hq hx => ?_⟩
      rw [placed, List.mem_cons] at hq
      rcases hq with rfl | hq
      · simp only at hx; omega
      · exact hu q hq hx

/-- **Jumps lead where they are meant to.**  What the processor adds to the address behind the jump gives the address of the label. -/
theorem layout_jump (dst : BitVec 64) (ls : List Nat) (pos : Nat) (t : Target)
    (h : -(2 ^ 31) ≤ (distance dst ls pos t).toInt ∧ (distance dst ls pos t).toInt < 2 ^ 31) :
    dst + BitVec.ofNat 64 pos + ((distance dst ls pos t).setWidth 32).signExtend 64 = t.address dst ls := by
  rw [fits32 ((fits32_iff _).2 h), distance]
  exact behind_target _ _

/-- A label is the place of what follows it. -/
theorem layout_label (disp : Nat → Target → List Byte) (before : List (List Item)) (pre post : List Item) (rest : List (List Item)) (starts : Nat → Nat) :
    let k := (before.flatMap (·.filter (· = .mark))).length + (pre.filter (· = .mark)).length
    let pos := after (starts before.length) pre
    (labels starts 0 (before ++ (pre ++ .mark :: post) :: rest))[k]? = some pos ∧
      image disp (starts before.length) (pre ++ .mark :: post) = image disp (starts before.length) pre ++ image disp pos post := by
  intro k pos
  have lin : ∀ (items : List Item) (p : Nat), (labelsIn p items).length = (items.filter (· = .mark)).length := by
    intro items
    induction items with
    | nil => intro p; rfl
    | cons i is ih => intro p; cases i <;> simp [labelsIn, ih]
  have lall : ∀ (bs : List (List Item)) (j : Nat), (labels starts j bs).length = (bs.flatMap (·.filter (· = .mark))).length := by
    intro bs
    induction bs with
    | nil => intro j; rfl
    | cons b bs ih => intro j; simp only [labels, List.length_append, lin, ih, List.flatMap_cons]
  have app : ∀ (bs cs : List (List Item)) (j : Nat), labels starts j (bs ++ cs) = labels starts j bs ++ labels starts (j + bs.length) cs := by
    intro bs cs
    induction bs with
    | nil => intro j; simp [labels]
    | cons b bs ih =>
      intro j
      simp only [List.cons_append, labels, ih, List.append_assoc, List.length_cons, Nat.add_assoc, Nat.add_comm 1]
  have lapp : ∀ (a b : List Item) (p : Nat), labelsIn p (a ++ b) = labelsIn p a ++ labelsIn (after p a) b := by
    intro a b
    induction a with
    | nil => intro p; simp [labelsIn, after]
    | cons i is ih => intro p; rw [after_cons]; cases i <;> simp [labelsIn, ih, Item.behind]
  have iapp : ∀ (a b : List Item) (p : Nat), image disp p (a ++ b) = image disp p a ++ image disp (after p a) b := by
    intro a b
    induction a with
    | nil => intro p; simp [image, after]
    | cons i is ih => intro p; rw [after_cons]; simp [image, ih]
  constructor
  · rw [app, List.getElem?_append_right (by rw [lall]; omega), lall, labels, lapp, Nat.zero_add, List.append_assoc,
      List.getElem?_append_right (by rw [lin]; omega), lin, labelsIn]
    have : k - (before.flatMap (·.filter (· = .mark))).length - (pre.filter (· = .mark)).length = 0 := by omega
    rw [this]
    rfl
  · rw [iapp]
    rfl

/-- **Alignment.**  The distance of a jump for which alignment was asked for, behind an opcode of that length, has an aligned address, if the
code has; less than one unit is wasted. -/
theorem layout_aligned (pre : List Item) (start : Nat) (op al : Nat) (ha : 0 < al) (hd : al ∣ 2 ^ 64) (dst : BitVec 64) (h : dst.toNat % al = 0) :
    let pos := after start (pre ++ [.align op al])
    (dst + BitVec.ofNat 64 (pos + op)).toNat % al = 0 ∧ pos < after start pre + al := by
  intro pos
  have e : pos = after start pre + gap al (after start pre + op) := by
    simp only [pos, after, List.foldl_append, List.foldl_cons, List.foldl_nil, Item.behind]
  constructor
  · rw [BitVec.toNat_add, BitVec.toNat_ofNat, Nat.mod_mod_of_dvd _ hd, Nat.add_mod, h, Nat.mod_mod_of_dvd _ hd, e, Nat.zero_add, Nat.mod_mod]
    have := gap_aligns (al := al) (n := after start pre + op) ha
    rw [show after start pre + gap al (after start pre + op) + op = after start pre + op + gap al (after start pre + op) by omega]
    exact this
  · have := gap_lt (al := al) (n := after start pre + op) ha
    omega

/-- **Padding does nothing.** -/
theorem layout_padding (fpu : Cpu.Fpu) (k : Nat) (pc : BitVec 64) (s : Cpu.State) : Runs fpu (List.replicate k 0x90#8) pc s s := by
  induction k generalizing pc with
  | zero => exact runs_nil _ _ _
  | succ k ih =>
    rw [List.replicate_succ]
    exact runs_append (c := [0x90#8]) (runs_one .nop (by simp) (fun rest => rfl) rfl) (ih _)

/-- A block of the program as `Link` has it, where the distances have been looked at alone. -/
def Item.link (dst : BitVec 64) (ls : List Nat) (pos : Nat) : Item → List X86.Item
  | .bytes l => [.code l]
  | .jump op t => [.jump op (t.address dst ls)]
  | .align i al => [.code (List.replicate (gap al (pos + i)) 0x90#8)]
  | .mark => []

def link (dst : BitVec 64) (ls : List Nat) (pos : Nat) : List Item → List X86.Item
  | [] => []
  | i :: is => i.link dst ls pos ++ link dst ls (i.behind pos) is

/-- What is said about linked code (C85 to C89) holds for the blocks where they are put. -/
theorem layout_linked (dst : BitVec 64) (ls : List Nat) (items : List Item) (pos : Nat)
    (h : ∀ j ∈ jumpsIn pos items, -(2 ^ 31) ≤ (distance dst ls (j.1 + (j.2.1 + 4)) j.2.2).toInt ∧
      (distance dst ls (j.1 + (j.2.1 + 4)) j.2.2).toInt < 2 ^ 31) :
    linked (dst + BitVec.ofNat 64 pos) (link dst ls pos items) =
      some (image (fun pos t => append4 (distance dst ls pos t)) pos items) := by
  induction items generalizing pos with
  | nil => rfl
  | cons i is ih =>
    cases i with
    | bytes l =>
      have := ih _ h
      simp only [link, Item.link, Item.behind, List.cons_append, List.nil_append, linked, image, Item.image, X86.behind] at this ⊢
      rw [BitVec.add_assoc, ← BitVec.ofNat_add, this]
      rfl
    | align n al =>
      have := ih _ h
      simp only [link, Item.link, Item.behind, List.cons_append, List.nil_append, linked, image, Item.image, X86.behind, List.length_replicate] at this ⊢
      rw [BitVec.add_assoc, ← BitVec.ofNat_add, this]
      rfl
    | mark => exact ih _ h
    | jump op t =>
      have := ih _ (fun j hj => h j (List.mem_cons_of_mem _ hj))
      have hf := h (pos, op.length, t) (by simp [jumpsIn])
      simp only [link, Item.link, Item.behind, List.cons_append, List.nil_append, linked, image, Item.image] at this ⊢
      rw [BitVec.add_assoc, ← BitVec.ofNat_add, this]
      have e : fitsInInt32 (t.address dst ls - (dst + BitVec.ofNat 64 (pos + (op.length + 4)))) = true := (fits32_iff _).2 hf
      rw [if_pos e]
      rfl

/-! ### An example -/

/-- Three blocks, resolved in another order, with jumps in both directions, a call with alignment and one to the outside. -/
def exProgram : List (List Item) :=
  [[.bytes [0x89#8, 0xc1#8], .align 1 4, .jump [0xe8#8] (.addr 0x401000), .mark, .jump [0x0f#8, 0x84#8] (.label 2)],
    [.mark, .bytes [0xc3#8]],
    [.align 1 8, .mark, .jump [0xe9#8] (.label 0), .jump [0xe9#8] (.label 1)]]

example : Aligns exProgram ∧ Complete exProgram [0, 2, 1] := by
  refine ⟨?_, by decide, ?_⟩
  · intro b hb i al h
    simp only [exProgram, List.mem_cons, List.not_mem_nil, or_false] at hb
    rcases hb with rfl | rfl | rfl <;> simp at h <;> omega
  · intro j
    simp [exProgram]
    omega

example : placed exProgram 0 [0, 2, 1] = [(0, 0), (2, 14), (1, 25)] ∧ total exProgram 0 [0, 2, 1] = 26 ∧
    labels (startOf (placed exProgram 0 [0, 2, 1])) 0 exProgram = [8, 25, 15] := by decide +kernel

example : ((assemble exProgram [0, 2, 1] 0x400000 (fun _ => 0xcc#8)).map fun r => (r.1, (List.range 28).map r.2.2)) =
    some (26, [0x89#8, 0xc1#8, 0x90#8, 0xe8#8, 0xf8#8, 0x0f#8, 0#8, 0#8, 0x0f#8, 0x84#8, 0x01#8, 0#8, 0#8, 0#8,
      0x90#8, 0xe9#8, 0xf4#8, 0xff#8, 0xff#8, 0xff#8, 0xe9#8, 0#8, 0#8, 0#8, 0#8, 0xc3#8, 0xcc#8, 0xcc#8]) := by decide +kernel

example : Known (labels (startOf (placed exProgram 0 [0, 2, 1])) 0 exProgram) (jumps (startOf (placed exProgram 0 [0, 2, 1])) 0 exProgram) := by
  have e : jumps (startOf (placed exProgram 0 [0, 2, 1])) 0 exProgram =
      [(3, 1, .addr 0x401000), (8, 2, .label 2), (15, 1, .label 0), (20, 1, .label 1)] := by decide +kernel
  have l : (labels (startOf (placed exProgram 0 [0, 2, 1])) 0 exProgram).length = 3 := by decide +kernel
  rw [e]
  intro j hj k hk
  rw [l]
  simp only [List.mem_cons, List.not_mem_nil, or_false] at hj
  rcases hj with rfl | rfl | rfl | rfl <;> simp at hk <;> omega

/-- A target that is too far away. -/
example : (assemble [[.jump [0xe8#8] (.addr 0x480000005)]] [0] 0x400000000 (fun _ => 0#8)).isSome = false ∧
    (assemble [[.jump [0xe8#8] (.addr 0x480000004)]] [0] 0x400000000 (fun _ => 0#8)).isSome = true := by decide +kernel

end Avian.X86.Layout
