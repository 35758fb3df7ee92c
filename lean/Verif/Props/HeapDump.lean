import Verif.Heap.Dump
import Verif.Props.HeapWalk
import Verif.Lib.Outcome

/-
C98: what a heap dump says.

A reader of the dump, written from the format alone, gets the objects that can be reached, with their sizes and names, and their references.
-/
namespace Avian.HeapWalk

/-! ### A reader -/

/-- Four bytes as a number, most significant first. -/
def be4 (a b c d : Byte) : Nat := a.toNat * 2 ^ 24 + b.toNat * 2 ^ 16 + c.toNat * 2 ^ 8 + d.toNat

/-- What is in a dump: a root and its number, a reference of the current object and the number of the object it leads to, the size and the name of the
current object, and the end of an object. -/
inductive Tok where
  | root (k : Nat)
  | push (k : Nat)
  | words (w : Nat)
  | name (s : List Byte)
  | pop
  deriving DecidableEq

/-- Four bytes, and the rest. -/
def take4 : List Byte → Option (Nat × List Byte)
  | a :: b :: c :: d :: r => some (be4 a b c d, r)
  | _ => none

/-- So many bytes, and the rest. -/
def takeBytes (n : Nat) (r : List Byte) : Option (List Byte × List Byte) := if r.length < n then none else some (r.take n, r.drop n)

/-- One thing in the dump, and the rest. -/
def parseOne (t : Byte) (r : List Byte) : Option (Tok × List Byte) :=
  if t = 0 then (take4 r).map fun x => (.root x.1, x.2)
  else if t = 1 then (take4 r).map fun x => (.words x.1, x.2)
  else if t = 2 then (take4 r).bind fun x => (takeBytes x.1 x.2).map fun y => (.name y.1, y.2)
  else if t = 3 then (take4 r).map fun x => (.push x.1, x.2)
  else if t = 4 then some (.pop, r)
  else none

/-- The format, with a limit. -/
def parse : Nat → List Byte → Option (List Tok)
  | _, [] => some []
  | 0, _ :: _ => none
  | n + 1, t :: r => (parseOne t r).bind fun x => (parse n x.2).map (x.1 :: ·)

/-- What a dump says. -/
inductive Fact where
  | root (k : Nat)
  | words (k w : Nat)
  | name (k : Nat) (s : List Byte)
  | edge (a b : Nat)
  deriving DecidableEq

/-- The reader: the current object and those around it. -/
def read : Nat → List Nat → List Tok → Option (List Fact)
  | _, _, [] => some []
  | _, _, .root k :: ts => (read k [] ts).map (Fact.root k :: ·)
  | c, st, .push k :: ts => (read k (c :: st) ts).map (Fact.edge c k :: ·)
  | c, st, .words w :: ts => (read c st ts).map (Fact.words c w :: ·)
  | c, st, .name s :: ts => (read c st ts).map (Fact.name c s :: ·)
  | _, c :: st, .pop :: ts => read c st ts
  | _, [], .pop :: _ => none

/-- What the bytes say. -/
def readDump (bs : List Byte) : Option (List Fact) := (parse bs.length bs).bind (read 0 [])

def Fact.getRoot : Fact → Option Nat
  | .root k => some k
  | _ => none

def Fact.getWords : Fact → Option (Nat × Nat)
  | .words k w => some (k, w)
  | _ => none

def Fact.getName : Fact → Option (Nat × List Byte)
  | .name k s => some (k, s)
  | _ => none

def Fact.getEdge : Fact → Option (Nat × Nat)
  | .edge a b => some (a, b)
  | _ => none

/-! ### The format can be read -/

theorem be4_write4 {v : Nat} (h : v < 2 ^ 32) :
    be4 (BitVec.ofNat 8 (v / 2 ^ 24)) (BitVec.ofNat 8 (v / 2 ^ 16)) (BitVec.ofNat 8 (v / 2 ^ 8)) (BitVec.ofNat 8 v) = v := by
  unfold be4
  simp only [BitVec.toNat_ofNat]
  omega

/-- The number that is told first. -/
def headNumber : List Event → Nat
  | .new _ k :: _ => k
  | .old _ k :: _ => k
  | _ => 0

theorem headNumber_append {a : List Event} (b : List Event) (h : a ≠ []) : headNumber (a ++ b) = headNumber a := by
  cases a with
  | nil => exact absurd rfl h
  | cons x a => cases x <;> rfl

section
variable (i : Info)

def nameTok (p : Nat) : List Tok :=
  match i.name p with
  | none => []
  | some s => [.name s]

/-- The events as they are in the dump. -/
def toks : List Event → List Tok
  | [] => []
  | .root :: es => .root (headNumber es) :: toks es
  | .push _ _ _ :: es => .push (headNumber es) :: toks es
  | .pop :: es => .pop :: toks es
  | .old _ _ :: es => toks es
  | .new p _ :: es => (if p = 0 then [] else .words (i.words p) :: nameTok i p) ++ toks es

def nameFact (p k : Nat) : List Fact :=
  match i.name p with
  | none => []
  | some s => [.name k s]

/-- What the events say. -/
def facts : List Event → List Fact
  | [] => []
  | .root :: es => .root (headNumber es) :: facts es
  | .push _ n _ :: es => .edge n (headNumber es) :: facts es
  | .pop :: es => facts es
  | .old _ _ :: es => facts es
  | .new p n :: es => (if p = 0 then [] else .words n (i.words p) :: nameFact i p n) ++ facts es

/-- What fits into the format. -/
def Fits (p : Nat) : Prop := i.words p < 2 ^ 32 ∧ ∀ s, i.name p = some s → s.length < 2 ^ 32

/-- An object that is told, in a dump: not null as a new one, and all fits. -/
def Shown : Event → Prop
  | .new p k => p ≠ 0 ∧ k < 2 ^ 32 ∧ Fits i p
  | .old _ k => k < 2 ^ 32
  | _ => False

/-- Each root and each reference is followed by an object, and no other object is told. -/
inductive Framed : List Event → Prop where
  | nil : Framed []
  | pop {es : List Event} (h : Framed es) : Framed (.pop :: es)
  | root {v : Event} {es : List Event} (hv : Shown i v) (h : Framed es) : Framed (.root :: v :: es)
  | push {p n o : Nat} {v : Event} {es : List Event} (hv : Shown i v) (h : Framed es) : Framed (.push p n o :: v :: es)

theorem Framed.append {a b : List Event} (h : Framed i a) (h1 : Framed i b) : Framed i (a ++ b) := by
  induction h with
  | nil => exact h1
  | pop _ ih => exact .pop ih
  | root hv _ ih => exact .root hv ih
  | push hv _ ih => exact .push hv ih

theorem parse_more {n : Nat} : ∀ {m : Nat} {bs : List Byte} {ts : List Tok}, n ≤ m → parse n bs = some ts → parse m bs = some ts := by
  induction n with
  | zero =>
    intro m bs ts _ h
    cases bs with
    | nil => cases m <;> exact h
    | cons b bs => simp [parse] at h
  | succ n ih =>
    intro m bs ts hm h
    obtain ⟨m, rfl⟩ : ∃ k, m = k + 1 := ⟨m - 1, by omega⟩
    cases bs with
    | nil => exact h
    | cons t r =>
      unfold parse at h ⊢
      obtain ⟨x, h1, h2⟩ := Option.bind_eq_some_iff.1 h
      obtain ⟨y, h3, h4⟩ := Option.map_eq_some_iff.1 h2
      rw [h1]
      show (parse m x.2).map _ = _
      rw [ih (by omega) h3]
      exact congrArg some h4

theorem parse_step {t : Byte} {r r' : List Byte} {k : Tok} {ts : List Tok} (h : parseOne t r = some (k, r')) (hl : r'.length ≤ r.length)
    (h1 : parse r'.length r' = some ts) : parse (t :: r).length (t :: r) = some (k :: ts) := by
  refine parse_more (n := r'.length + 1) (by simp; omega) ?_
  unfold parse
  rw [h]
  show (parse r'.length r').map _ = _
  rw [h1]; rfl

theorem take4_write4 {v : Nat} (h : v < 2 ^ 32) (r : List Byte) : take4 (write4 v ++ r) = some (v, r) := by
  show some (be4 _ _ _ _, r) = _
  rw [be4_write4 h]

theorem parse_root {k : Nat} (h : k < 2 ^ 32) {r : List Byte} {ts : List Tok} (h1 : parse r.length r = some ts) :
    parse (tagRoot :: (write4 k ++ r)).length (tagRoot :: (write4 k ++ r)) = some (.root k :: ts) :=
  parse_step (by unfold parseOne; rw [if_pos (by decide), take4_write4 h]; rfl) (by simp) h1

theorem parse_words {k : Nat} (h : k < 2 ^ 32) {r : List Byte} {ts : List Tok} (h1 : parse r.length r = some ts) :
    parse (tagSize :: (write4 k ++ r)).length (tagSize :: (write4 k ++ r)) = some (.words k :: ts) :=
  parse_step (by unfold parseOne; rw [if_neg (by decide), if_pos (by decide), take4_write4 h]; rfl) (by simp) h1

theorem parse_name {s : List Byte} (h : s.length < 2 ^ 32) {r : List Byte} {ts : List Tok} (h1 : parse r.length r = some ts) :
    parse (tagName :: (writeString s ++ r)).length (tagName :: (writeString s ++ r)) = some (.name s :: ts) :=
  parse_step (r' := r) (by
    unfold parseOne writeString
    rw [if_neg (by decide), if_neg (by decide), if_pos (by decide), List.append_assoc, take4_write4 h]
    show (takeBytes s.length (s ++ r)).map _ = _
    unfold takeBytes
    rw [if_neg (by simp), List.take_left, List.drop_left]
    rfl) (by simp [writeString]; omega) h1

theorem parse_push {k : Nat} (h : k < 2 ^ 32) {r : List Byte} {ts : List Tok} (h1 : parse r.length r = some ts) :
    parse (tagPush :: (write4 k ++ r)).length (tagPush :: (write4 k ++ r)) = some (.push k :: ts) :=
  parse_step (by unfold parseOne; rw [if_neg (by decide), if_neg (by decide), if_neg (by decide), if_pos (by decide), take4_write4 h]; rfl) (by simp) h1

theorem parse_pop {r : List Byte} {ts : List Tok} (h1 : parse r.length r = some ts) :
    parse (tagPop :: r).length (tagPop :: r) = some (.pop :: ts) :=
  parse_step (by unfold parseOne; rw [if_neg (by decide), if_neg (by decide), if_neg (by decide), if_neg (by decide), if_pos (by decide)]) (Nat.le_refl _) h1

theorem parse_shown {v : Event} (hv : Shown i v) {rest : List Byte} {ts : List Tok} (hr : parse rest.length rest = some ts) :
    ∃ b, dumpEvent i v = write4 (headNumber [v]) ++ b ∧ headNumber [v] < 2 ^ 32 ∧ parse (b ++ rest).length (b ++ rest) = some (toks i [v] ++ ts) := by
  cases v with
  | root => cases hv
  | push => cases hv
  | pop => cases hv
  | old p k => exact ⟨[], by simp [dumpEvent, headNumber], hv, hr⟩
  | new p k =>
    obtain ⟨h1, h2, h3, h4⟩ := hv
    cases hn : i.name p with
    | none =>
      refine ⟨tagSize :: write4 (i.words p), by simp only [dumpEvent, if_neg h1, hn]; simp [headNumber], h2, ?_⟩
      have := parse_words h3 hr
      simp only [toks, if_neg h1, nameTok, hn]
      exact this
    | some s =>
      refine ⟨tagSize :: (write4 (i.words p) ++ tagName :: writeString s), by simp only [dumpEvent, if_neg h1, hn]; simp [headNumber], h2, ?_⟩
      have := parse_words h3 (parse_name (h4 s hn) hr)
      simp only [toks, if_neg h1, nameTok, hn]
      simpa using this

theorem toks_cons {v : Event} (hv : Shown i v) (es : List Event) : toks i (v :: es) = toks i [v] ++ toks i es := by
  cases v with
  | root => cases hv
  | push => cases hv
  | pop => cases hv
  | old p k => simp [toks]
  | new p k => simp [toks]

theorem parse_ok {es : List Event} (h : Framed i es) :
    parse (es.flatMap (dumpEvent i)).length (es.flatMap (dumpEvent i)) = some (toks i es) := by
  induction h with
  | nil => rfl
  | pop h ih => exact parse_pop ih
  | root hv h ih =>
    rename_i v es
    obtain ⟨b, b1, b2, b3⟩ := parse_shown i hv ih
    have e : (Event.root :: v :: es).flatMap (dumpEvent i) = tagRoot :: (write4 (headNumber [v]) ++ (b ++ es.flatMap (dumpEvent i))) := by
      simp only [List.flatMap_cons, b1]
      simp [dumpEvent]
    rw [e, parse_root b2 b3, ← toks_cons i hv]
    cases v <;> rfl
  | push hv h ih =>
    rename_i p n o v es
    obtain ⟨b, b1, b2, b3⟩ := parse_shown i hv ih
    have e : (Event.push p n o :: v :: es).flatMap (dumpEvent i) = tagPush :: (write4 (headNumber [v]) ++ (b ++ es.flatMap (dumpEvent i))) := by
      simp only [List.flatMap_cons, b1]
      simp [dumpEvent]
    rw [e, parse_push b2 b3, ← toks_cons i hv]
    cases v <;> rfl

/-! ### What the reader gets -/

theorem facts_new {p : Nat} (hp : p ≠ 0) (n : Nat) (c : Nat) (st : List Nat) (ts : List Tok) (he : c = n) :
    read c st ((if p = 0 then [] else .words (i.words p) :: nameTok i p) ++ ts) =
      (read c st ts).map (fun fs => (if p = 0 then [] else Fact.words n (i.words p) :: nameFact i p n) ++ fs) := by
  subst he
  rw [if_neg hp, if_neg hp]
  unfold nameTok nameFact
  cases i.name p with
  | none => rfl
  | some s =>
    show ((read c st ts).map _).map _ = _
    rw [Option.map_map]; rfl

/-- The traversal as it is in the dump: for an object, from behind its number. -/
theorem walk_read {g : Graph} {num : List Event → Nat → Nat} {t : Task} {h es : List Event} {m m' : Nat → Option Nat} (hw : Walk g num t h m es m') :
    m 0 ≠ none →
      m' 0 ≠ none ∧ ∃ fs, (∀ rest, facts i (es ++ rest) = fs ++ facts i rest) ∧
        ∀ c, (match t with | .visit _ => es ≠ [] ∧ c = headNumber es | .kids _ n _ => c = n) →
          ∀ st rest, read c st (toks i (es ++ rest)) = (read c st (toks i rest)).map (fs ++ ·) := by
  induction hw with
  | old h1 =>
    intro h0
    refine ⟨h0, [], fun _ => rfl, fun c _ st rest => ?_⟩
    simp only [List.nil_append]
    show read c st (toks i rest) = _
    exact Option.map_id'.symm
  | last =>
    intro h0
    refine ⟨h0, [], fun _ => rfl, fun c _ st rest => ?_⟩
    simp only [List.nil_append]
    exact Option.map_id'.symm
  | new h1 h2 ih =>
    rename_i h es m m' p
    intro h0
    have hp : p ≠ 0 := fun e => h0 (by rw [← e]; exact h1)
    obtain ⟨h3, fs, h4, h5⟩ := ih (by unfold put; rw [if_neg (fun e => hp e.symm)]; exact h0)
    refine ⟨h3, (if p = 0 then [] else .words (num h p) (i.words p) :: nameFact i p (num h p)) ++ fs, fun rest => ?_, fun c hc st rest => ?_⟩
    · show _ ++ facts i (es ++ rest) = _
      rw [h4, List.append_assoc]
    · have hc' : c = num h p := hc.2
      show read c st (_ ++ toks i (es ++ rest)) = _
      rw [facts_new i hp (num h p) c st _ hc', h5 c hc' st rest, Option.map_map]
      congr 1
      funext x
      simp
  | kid h1 h2 ih1 ih2 =>
    rename_i h es es' m m1 m' p n o os
    intro h0
    obtain ⟨a1, fs, a2, a3⟩ := ih1 h0
    obtain ⟨b1, fs', b2, b3⟩ := ih2 a1
    have hne : es ≠ [] := by cases h1 <;> nofun
    refine ⟨b1, .edge n (headNumber es) :: (fs ++ fs'), fun rest => ?_, fun c hc st rest => ?_⟩
    · show Fact.edge n (headNumber (es ++ .pop :: es' ++ rest)) :: facts i (es ++ .pop :: es' ++ rest) = _
      rw [List.append_assoc, headNumber_append _ hne, a2]
      show _ :: (fs ++ facts i (es' ++ rest)) = _
      rw [b2]
      simp
    · have hc' : c = n := hc
      subst hc'
      show (read (headNumber (es ++ .pop :: es' ++ rest)) (c :: st) (toks i (es ++ .pop :: es' ++ rest))).map _ = _
      rw [List.append_assoc, headNumber_append _ hne, a3 _ ⟨hne, rfl⟩]
      show ((read c st (toks i (es' ++ rest))).map _).map _ = _
      rw [b3 c rfl]
      cases read c st (toks i rest) with
      | none => rfl
      | some x =>
        have e : headNumber (es ++ .pop :: (es' ++ rest)) = headNumber es := headNumber_append _ hne
        simp [e]

theorem read_walks {g : Graph} {num : List Event → Nat → Nat} {rs : List Nat} {h h' : List Event} {m m' : Nat → Option Nat} (w : Walks g num rs h m h' m') :
    m 0 ≠ none → ∃ es, h' = h ++ es ∧ ∀ c st, read c st (toks i es) = some (facts i es) := by
  induction w with
  | nil => intro _; exact ⟨[], by simp, fun _ _ => rfl⟩
  | cons w1 _ ih =>
    rename_i h es h' m m1 m' r rs _
    intro h0
    obtain ⟨a1, fs, a2, a3⟩ := walk_read i w1 h0
    obtain ⟨es', b1, b2⟩ := ih a1
    have hne : es ≠ [] := by cases w1 <;> nofun
    refine ⟨.root :: (es ++ es'), by rw [b1]; simp, fun c st => ?_⟩
    show (read (headNumber (es ++ es')) [] (toks i (es ++ es'))).map _ = some (Fact.root (headNumber (es ++ es')) :: facts i (es ++ es'))
    rw [headNumber_append _ hne, a3 _ ⟨hne, rfl⟩, b2, a2]
    rfl

/-! ### The frames -/

theorem walk_framed {g : Graph} {num : List Event → Nat → Nat} {t : Task} {h es : List Event} {m m' : Nat → Option Nat} (hw : Walk g num t h m es m')
    (hf : ∀ p k, (.new p k ∈ es ∨ .old p k ∈ es) → k < 2 ^ 32 ∧ Fits i p) : m 0 ≠ none →
      m' 0 ≠ none ∧ (match t with | .visit _ => ∃ v es', es = v :: es' ∧ Shown i v ∧ Framed i es' | .kids _ _ _ => Framed i es) := by
  induction hw with
  | old h1 =>
    rename_i h m p n
    exact fun h0 => ⟨h0, _, _, rfl, (hf p n (Or.inr (by simp))).1, .nil⟩
  | last => exact fun h0 => ⟨h0, .nil⟩
  | new h1 h2 ih =>
    rename_i h es m m' p
    intro h0
    have hp : p ≠ 0 := fun e => h0 (by rw [← e]; exact h1)
    obtain ⟨h3, h4⟩ := ih (fun q k hq => hf q k (hq.imp (List.mem_cons_of_mem _) (List.mem_cons_of_mem _)))
      (by unfold put; rw [if_neg (fun e => hp e.symm)]; exact h0)
    have := hf p (num h p) (Or.inl List.mem_cons_self)
    exact ⟨h3, _, _, rfl, ⟨hp, this.1, this.2⟩, h4⟩
  | kid h1 h2 ih1 ih2 =>
    rename_i h es es' m m1 m' p n o os
    intro h0
    obtain ⟨a1, v, es1, a2, a3, a4⟩ := ih1 (fun q k hq => hf q k (by simp; rcases hq with hq | hq <;> simp [hq])) h0
    obtain ⟨b1, b2⟩ := ih2 (fun q k hq => hf q k (by simp; rcases hq with hq | hq <;> simp [hq])) a1
    refine ⟨b1, ?_⟩
    show Framed i (.push p n o :: (es ++ .pop :: es'))
    rw [a2]
    exact .push a3 (a4.append i (.pop b2))

theorem walks_framed {g : Graph} {num : List Event → Nat → Nat} {rs : List Nat} {h h' : List Event} {m m' : Nat → Option Nat} (w : Walks g num rs h m h' m')
    (hf : ∀ p k, (.new p k ∈ h' ∨ .old p k ∈ h') → k < 2 ^ 32 ∧ Fits i p) : m 0 ≠ none → ∃ es, h' = h ++ es ∧ Framed i es := by
  induction w with
  | nil => intro _; exact ⟨[], by simp, .nil⟩
  | cons w1 _ ih =>
    rename_i h es h' m m1 m' r rs _
    intro h0
    have h1 : m1 0 ≠ none := (walk_read i w1 h0).1
    obtain ⟨es', b1, b2⟩ := ih hf h1
    obtain ⟨_, v, es1, a2, a3, a4⟩ := walk_framed i w1 (fun q k hq => hf q k (by rw [b1]; simp; rcases hq with hq | hq <;> simp [hq])) h0
    refine ⟨.root :: (es ++ es'), by rw [b1]; simp, ?_⟩
    rw [a2]
    exact .root a3 (a4.append i b2)

/-! ### What the events say -/

theorem words_facts {m : Nat → Option Nat} : ∀ {es : List Event}, Named m es →
    (facts i es).filterMap Fact.getWords = ((news es).filter (· ≠ 0)).map fun p => ((m p).getD 0, i.words p)
  | [], _ => rfl
  | e :: es, h => by
    have ih := words_facts (m := m) (es := es) fun p n hp => h p n (hp.imp (List.mem_cons_of_mem _) (List.mem_cons_of_mem _))
    cases e with
    | root => exact ih
    | push => exact ih
    | pop => exact ih
    | old => exact ih
    | new p n =>
      have hp := h p n (Or.inl List.mem_cons_self)
      by_cases h0 : p = 0
      · simp only [facts, if_pos h0, List.nil_append, ih, news]
        rw [List.filter_cons_of_neg (by simp [h0])]
      · simp only [facts, if_neg h0, news]
        rw [List.filter_cons_of_pos (by simp [h0]), List.map_cons, hp, ← ih]
        unfold nameFact
        cases i.name p <;> simp [Fact.getWords, List.filterMap_cons]

theorem names_facts {m : Nat → Option Nat} : ∀ {es : List Event}, Named m es →
    (facts i es).filterMap Fact.getName = ((news es).filter (· ≠ 0)).filterMap fun p => (i.name p).map fun s => ((m p).getD 0, s)
  | [], _ => rfl
  | e :: es, h => by
    have ih := names_facts (m := m) (es := es) fun p n hp => h p n (hp.imp (List.mem_cons_of_mem _) (List.mem_cons_of_mem _))
    cases e with
    | root => exact ih
    | push => exact ih
    | pop => exact ih
    | old => exact ih
    | new p n =>
      have hp := h p n (Or.inl List.mem_cons_self)
      by_cases h0 : p = 0
      · simp only [facts, if_pos h0, List.nil_append, ih, news]
        rw [List.filter_cons_of_neg (by simp [h0])]
      · simp only [facts, if_neg h0, news]
        rw [List.filter_cons_of_pos (by simp [h0]), List.filterMap_cons, ← ih]
        unfold nameFact
        cases i.name p <;> simp [Fact.getName, hp, List.filterMap_cons]

theorem edges_facts {g : Graph} {m : Nat → Option Nat} : ∀ {es : List Event}, Told g m es →
    (facts i es).filterMap Fact.getEdge = (pushes es).map fun x => ((m x.1).getD 0, (m (g.target x.1 x.2)).getD 0)
  | [], _ => rfl
  | .root :: es, h => edges_facts (es := es) h
  | .pop :: es, h => edges_facts (es := es) h
  | .old _ _ :: es, h => edges_facts (es := es) h
  | .new p n :: es, h => by
    have ih := edges_facts (g := g) (m := m) (es := es) h
    show List.filterMap _ (_ ++ facts i es) = (pushes es).map _
    rw [List.filterMap_append, ih]
    by_cases h0 : p = 0
    · rw [if_pos h0]; rfl
    · rw [if_neg h0]; unfold nameFact; cases i.name p <;> rfl
  | .push p n o :: es, ⟨h1, ⟨k, h2, h3⟩, h4⟩ => by
    have ih := edges_facts (g := g) (m := m) (es := es) h4
    show (n, headNumber es) :: (facts i es).filterMap Fact.getEdge = ((m p).getD 0, (m (g.target p o)).getD 0) :: _
    rw [ih, h1, h2]
    have : headNumber es = k := by
      cases es with
      | nil => rcases h3 with h3 | h3 <;> cases h3
      | cons e es => rcases h3 with h3 | h3 <;> cases h3 <;> rfl
    rw [this]; rfl

theorem roots_facts_append {g : Graph} {num : List Event → Nat → Nat} {t : Task} {h es : List Event} {m m' : Nat → Option Nat} (hw : Walk g num t h m es m') :
    ∀ rest, (facts i (es ++ rest)).filterMap Fact.getRoot = (facts i rest).filterMap Fact.getRoot := by
  induction hw with
  | old => exact fun _ => rfl
  | last => exact fun _ => rfl
  | new h1 h2 ih =>
    rename_i h es m m' p
    intro rest
    show List.filterMap _ (_ ++ facts i (es ++ rest)) = _
    rw [List.filterMap_append, ih]
    by_cases h0 : p = 0
    · rw [if_pos h0]; rfl
    · rw [if_neg h0]; unfold nameFact; cases i.name p <;> rfl
  | kid h1 h2 ih1 ih2 =>
    rename_i h es es' m m1 m' p n o os
    intro rest
    show (facts i (es ++ .pop :: es' ++ rest)).filterMap Fact.getRoot = _
    rw [List.append_assoc, ih1]
    exact ih2 rest

theorem roots_facts {g : Graph} (hnd : ∀ p, (g.refs p).Nodup) {num : List Event → Nat → Nat} {rs : List Nat} {h h' : List Event} {m m' : Nat → Option Nat}
    (w : Walks g num rs h m h' m') :
    (∀ x k, m x = some k → m' x = some k) ∧ ∃ es, h' = h ++ es ∧ (facts i es).filterMap Fact.getRoot = rs.map fun r => (m' r).getD 0 := by
  induction w with
  | nil => exact ⟨fun _ _ h => h, [], by simp, rfl⟩
  | cons w1 _ ih =>
    rename_i h es h' m m1 m' r rs _
    obtain ⟨a1, es', a2, a3⟩ := ih
    have f := walk_facts hnd w1 trivial
    have hne : es ≠ [] := by cases w1 <;> nofun
    refine ⟨fun x k hx => a1 x k (f.mono x k hx), .root :: (es ++ es'), by rw [a2]; simp, ?_⟩
    show headNumber (es ++ es') :: (facts i (es ++ es')).filterMap Fact.getRoot = (m' r).getD 0 :: _
    rw [roots_facts_append i w1, a3, headNumber_append _ hne]
    obtain ⟨k, k1, k2⟩ := f.first r rfl
    rw [a1 r k k1]
    have : headNumber es = k := by
      cases es with
      | nil => exact absurd rfl hne
      | cons e es => rcases k2 with k2 | k2 <;> cases k2 <;> rfl
    rw [this]; rfl

end

/-! ### The numbers -/

/-- The objects other than null that were told as new, with their numbers. -/
def pairs : List Event → List (Nat × Nat)
  | [] => []
  | .new p n :: es => if p = 0 then pairs es else (p, n) :: pairs es
  | _ :: es => pairs es

theorem pairs_append : ∀ (a b : List Event), pairs (a ++ b) = pairs a ++ pairs b
  | [], _ => rfl
  | e :: a, b => by
    cases e with
    | new p n => by_cases h : p = 0 <;> simp [pairs, h, pairs_append a b]
    | _ => simp [pairs, pairs_append a b]

theorem counted_eq : ∀ (es : List Event), counted es = (pairs es).length
  | [] => rfl
  | e :: es => by
    have ih := counted_eq es
    cases e with
    | new p n => by_cases h : p = 0 <;> simp [pairs, counted, h, ih]; omega
    | _ => simpa [pairs, counted] using ih

/-- The numbers count the objects, and null has none. -/
def Numbered (h : List Event) : Prop := (∀ (j : Nat) (x : Nat × Nat), (pairs h)[j]? = some x → x.2 = j + 1) ∧ ∀ n, .new 0 n ∈ h → n = 0

theorem Numbered.other {h : List Event} (hn : Numbered h) {e : Event} (he : ∀ p n, e ≠ .new p n) : Numbered (h ++ [e]) := by
  refine ⟨?_, fun n hm => ?_⟩
  · rw [pairs_append]
    have : pairs [e] = [] := by cases e with | new p n => exact absurd rfl (he p n) | _ => rfl
    rw [this, List.append_nil]
    exact hn.1
  · rcases List.mem_append.1 hm with hm | hm
    · exact hn.2 n hm
    · exact absurd (List.mem_singleton.1 hm).symm (he 0 n)

theorem Numbered.new {h : List Event} (hn : Numbered h) (p : Nat) : Numbered (h ++ [.new p (dumpNumber h p)]) := by
  refine ⟨?_, fun n hm => ?_⟩
  · rw [pairs_append]
    intro j x hx
    by_cases h0 : p = 0
    · rw [show pairs [Event.new p (dumpNumber h p)] = [] by simp [pairs, h0], List.append_nil] at hx
      exact hn.1 j x hx
    · rw [show pairs [Event.new p (dumpNumber h p)] = [(p, 1 + counted h)] by simp [pairs, h0, dumpNumber]] at hx
      by_cases hj : j < (pairs h).length
      · rw [List.getElem?_append_left hj] at hx; exact hn.1 j x hx
      · rw [List.getElem?_append_right (by omega)] at hx
        cases hd : j - (pairs h).length with
        | zero =>
          rw [hd] at hx
          cases hx
          show 1 + counted h = j + 1
          rw [counted_eq]; omega
        | succ d => rw [hd] at hx; simp at hx
  · rcases List.mem_append.1 hm with hm | hm
    · exact hn.2 n hm
    · have := List.mem_singleton.1 hm
      injection this with h1 h2
      rw [h2, ← h1]; rfl

theorem Numbered.walk {g : Graph} {t : Task} {h es : List Event} {m m' : Nat → Option Nat} (hw : Walk g dumpNumber t h m es m') : Numbered h → Numbered (h ++ es) := by
  induction hw with
  | old => exact fun hn => hn.other nofun
  | last => intro hn; rw [List.append_nil]; exact hn
  | new h1 h2 ih => intro hn; have := ih (hn.new _); rw [List.append_assoc] at this; exact this
  | kid h1 h2 ih1 ih2 =>
    intro hn
    have := ih2 ((ih1 (hn.other nofun)).other nofun)
    simpa using this

theorem Numbered.walks {g : Graph} {rs : List Nat} {h h' : List Event} {m m' : Nat → Option Nat} (hw : Walks g dumpNumber rs h m h' m') : Numbered h → Numbered h' := by
  induction hw with
  | nil => exact fun h => h
  | cons w1 _ ih => exact fun h => ih ((h.other (by intros; nofun)).walk w1)

theorem mem_pairs {p n : Nat} : ∀ {es : List Event}, .new p n ∈ es → p ≠ 0 → (p, n) ∈ pairs es
  | e :: es, h, h0 => by
    rcases List.mem_cons.1 h with h | h
    · subst h; simp [pairs, h0]
    · have ih := mem_pairs h h0
      cases e with
      | new q k => by_cases hq : q = 0 <;> simp [pairs, hq, ih]
      | _ => exact ih

theorem mem_news {p : Nat} : ∀ {es : List Event}, p ∈ news es → ∃ n, .new p n ∈ es
  | e :: es, h => by
    cases e with
    | new q k =>
      rcases List.mem_cons.1 (show p ∈ q :: news es from h) with h | h
      · exact ⟨k, by rw [h]; exact List.mem_cons_self⟩
      · obtain ⟨n, hn⟩ := mem_news h; exact ⟨n, List.mem_cons_of_mem _ hn⟩
    | _ => obtain ⟨n, hn⟩ := mem_news (es := es) h; exact ⟨n, List.mem_cons_of_mem _ hn⟩

theorem pairs_fst : ∀ (es : List Event), (pairs es).map (·.1) = (news es).filter (· ≠ 0)
  | [] => rfl
  | e :: es => by
    have ih := pairs_fst es
    cases e with
    | new p n => by_cases h : p = 0 <;> simp [pairs, news, h, ih]
    | _ => exact ih

/-- **C98, the dump.** What a reader gets from the dump of a finite heap: there are the objects other than null that can be reached from the roots, each
once, and numbers for them that tell them apart (none is zero, which is the number of null); the dump says the number of each root, the size of each
object, the name of each class, and for each reference of each object once the numbers of the two objects. -/
theorem dump_ok {g : Graph} (hs : ∀ p, (g.refs p).Pairwise (· < ·)) (h0 : g.refs 0 = []) (i : Info) {U roots : List Nat} (hr : ∀ r ∈ roots, r ∈ U)
    (hU : ∀ p ∈ U, ∀ o ∈ g.refs p, g.target p o ∈ U) (hl : U.length < 2 ^ 32)
    (hf : ∀ p, i.words p < 2 ^ 32 ∧ ∀ s, i.name p = some s → s.length < 2 ^ 32) :
    ∃ (objs : List Nat) (refs : List (Nat × Nat)) (number : Nat → Nat),
      objs.Nodup ∧ (∀ p, p ∈ objs ↔ p ≠ 0 ∧ ∃ r ∈ roots, Reach g r p) ∧
      refs.Nodup ∧ (∀ p o, (p, o) ∈ refs ↔ p ∈ objs ∧ o ∈ g.refs p) ∧
      number 0 = 0 ∧ (∀ p ∈ objs, number p ≠ 0) ∧ (∀ p ∈ objs, ∀ q ∈ objs, number p = number q → p = q) ∧
      ∃ N, ∀ n, N ≤ n → ∃ bytes says, dumpHeap g i n roots = some bytes ∧ readDump bytes = some says ∧
        says.filterMap Fact.getRoot = roots.map number ∧
        says.filterMap Fact.getWords = objs.map (fun p => (number p, i.words p)) ∧
        says.filterMap Fact.getName = objs.filterMap (fun p => (i.name p).map fun s => (number p, s)) ∧
        says.filterMap Fact.getEdge = refs.map (fun x => (number x.1, number (g.target x.1 x.2))) := by
  have hnd : ∀ p, (g.refs p).Nodup := fun p => (hs p).imp fun h => Nat.ne_of_lt h
  obtain ⟨N, s, m, w, hm, h⟩ := walks_walk hs dumpNumber hr hU
  have hw := Whole.walks hnd w (initial_whole h0)
  rw [List.nil_append] at hw
  have hn0 : Numbered [.new 0 (dumpNumber [] 0)] := by simpa using Numbered.new (h := []) ⟨nofun, nofun⟩ 0
  have hn := hn0.walks w
  have hstart : (put (fun _ => none) 0 (dumpNumber [] 0)) 0 ≠ none := by unfold put; rw [if_pos rfl]; nofun
  -- the number of an object is its place
  have hplace : ∀ p k, p ≠ 0 → m p = some k → ∃ j, (pairs s.events)[j]? = some (p, k) ∧ k = j + 1 := by
    intro p k hp hk
    obtain ⟨n, hn1⟩ := mem_news ((hw.seen p).1 (by rw [hk]; nofun))
    have := hw.named p n (Or.inl hn1)
    rw [hk] at this
    cases this
    obtain ⟨j, hj⟩ := List.mem_iff_getElem?.1 (mem_pairs hn1 hp)
    exact ⟨j, hj, hn.1 j _ hj⟩
  have hzero : m 0 = some 0 := by
    cases hk : m 0 with
    | none =>
      obtain ⟨a, _⟩ := roots_facts i hnd w
      have := a 0 (dumpNumber [] 0) (by unfold put; rw [if_pos rfl])
      rw [hk] at this; cases this
    | some k =>
      obtain ⟨n, hn1⟩ := mem_news ((hw.seen 0).1 (by rw [hk]; nofun))
      have := hw.named 0 n (Or.inl hn1)
      rw [hk] at this
      cases this
      rw [hn.2 _ hn1]
  have hreach : ∀ x, x ∈ news s.events → x ≠ 0 → ∃ r ∈ roots, Reach g r x := fun x hx hx0 => (hw.reach x hx).resolve_left hx0
  have hinU : ∀ r x, r ∈ U → Reach g r x → x ∈ U := by
    intro r x hr hx
    induction hx with
    | refl => exact hr
    | step _ h1 ih => exact hU _ ih _ h1
  have hlen : (pairs s.events).length ≤ U.length := by
    rw [← List.length_map (f := (·.1)), pairs_fst]
    refine List.Nodup.length_le_of_subset (hw.nodup.filter _) fun x hx => ?_
    obtain ⟨h1, h2⟩ := List.mem_filter.1 hx
    obtain ⟨r, h3, h4⟩ := hreach x h1 (by simpa using h2)
    exact hinU r x (hr r h3) h4
  have hsmall : ∀ p k, (.new p k ∈ s.events ∨ .old p k ∈ s.events) → k < 2 ^ 32 ∧ Fits i p := by
    intro p k hp
    refine ⟨?_, hf p⟩
    have hk := hw.named p k hp
    by_cases hp0 : p = 0
    · rw [hp0, hzero] at hk; cases hk; decide
    · obtain ⟨j, h1, h2⟩ := hplace p k hp0 hk
      have := (List.getElem?_eq_some_iff.1 h1).1
      omega
  have hmem : ∀ p, p ∈ (news s.events).filter (· ≠ 0) ↔ p ≠ 0 ∧ ∃ r ∈ roots, Reach g r p := by
    intro p
    rw [List.mem_filter]
    constructor
    · rintro ⟨h1, h2⟩
      have h2 : p ≠ 0 := by simpa using h2
      exact ⟨h2, hreach p h1 h2⟩
    · rintro ⟨h1, r, h2, h3⟩
      exact ⟨hw.all h2 h3, by simpa using h1⟩
  refine ⟨(news s.events).filter (· ≠ 0), pushes s.events, fun p => (m p).getD 0, hw.nodup.filter _, hmem, hw.once, fun p o => ?_, by simp [hzero],
    fun p hp => ?_, fun p hp q hq e => ?_, N, fun n hn => ?_⟩
  · rw [hw.refs, List.mem_filter]
    constructor
    · rintro ⟨h1, h2⟩
      refine ⟨⟨h1, ?_⟩, h2⟩
      have : p ≠ 0 := fun e => by rw [e, h0] at h2; cases h2
      simpa using this
    · rintro ⟨⟨h1, _⟩, h2⟩
      exact ⟨h1, h2⟩
  · obtain ⟨h1, h2⟩ := List.mem_filter.1 hp
    cases hk : m p with
    | none => exact absurd hk ((hw.seen p).2 h1)
    | some k =>
      obtain ⟨j, _, h3⟩ := hplace p k (by simpa using h2) hk
      simp only [hk, Option.getD_some]
      omega
  · obtain ⟨h1, h2⟩ := List.mem_filter.1 hp
    obtain ⟨h3, h4⟩ := List.mem_filter.1 hq
    cases hk : m p with
    | none => exact absurd hk ((hw.seen p).2 h1)
    | some k =>
      cases hk' : m q with
      | none => exact absurd hk' ((hw.seen q).2 h3)
      | some k' =>
        have e : k = k' := by simpa [hk, hk'] using e
        obtain ⟨j, a1, a2⟩ := hplace p k (by simpa using h2) hk
        obtain ⟨j', b1, b2⟩ := hplace q k' (by simpa using h4) hk'
        rw [show j = j' by omega, b1] at a1
        cases a1
        rfl
  · obtain ⟨s0, xs, h1, h2, h3⟩ := h n hn
    obtain ⟨es, e1, e2⟩ := read_walks i w hstart
    obtain ⟨es', e3, e4⟩ := walks_framed i w hsmall hstart
    obtain ⟨_, es'', e5, e6⟩ := roots_facts i hnd w
    have : es' = es := List.append_cancel_left (e3.symm.trans e1)
    subst this
    have : es'' = es' := List.append_cancel_left (e5.symm.trans e1)
    subst this
    have hfacts : facts i s.events = facts i es'' := by rw [e1]; rfl
    have hbytes : s.events.flatMap (dumpEvent i) = es''.flatMap (dumpEvent i) := by rw [e1]; rfl
    refine ⟨s.events.flatMap (dumpEvent i), facts i s.events, ?_, ?_, ?_, words_facts i hw.named, names_facts i hw.named, edges_facts i hw.told⟩
    · unfold dumpHeap; rw [h1]; simp only [h2]
    · unfold readDump
      rw [hbytes, parse_ok i e4, hfacts]
      exact e2 0 []
    · rw [hfacts]; exact e6

/-! ### A case: a ring of two objects, one of which refers to itself and to null -/

def ring : Graph := ⟨fun p => if p = 8 then [1, 2] else if p = 16 then [1, 3, 4] else [], fun p o => if p = 8 then 16 else if o = 1 then 8 else if o = 3 then 16 else 0⟩

def ringInfo : Info := ⟨fun p => p / 4, fun p => if p = 16 then some [65, 66] else none⟩

example : (∀ p, (ring.refs p).Pairwise (· < ·)) ∧ ring.refs 0 = [] ∧ (∀ p ∈ [8, 16, 0], ∀ o ∈ ring.refs p, ring.target p o ∈ [8, 16, 0]) := by
  refine ⟨fun p => ?_, rfl, by decide⟩
  show (if p = 8 then [1, 2] else if p = 16 then [1, 3, 4] else []).Pairwise (· < ·)
  split
  · decide
  · split
    · decide
    · exact List.Pairwise.nil

example : ∀ p, ringInfo.words 16 = 4 ∧ ∀ s, ringInfo.name p = some s → s.length < 2 ^ 32 := by
  intro p
  refine ⟨rfl, fun s hs => ?_⟩
  have : (if p = 16 then some [65, 66] else none) = some s := hs
  split at this
  · cases this; decide
  · cases this

/-- What the visitor is told, with numbers that it makes up (`walks_ok`). -/
example : ((initial fun h p => 7 * h.length + p).bind fun s => (walks ring (fun h p => 7 * h.length + p) 100 s [16]).map fun x => (x.1.events, x.2)) =
    some ([.new 0 0, .root, .new 16 30, .push 16 30 1, .new 8 36, .push 8 36 1, .old 16 30, .pop, .push 8 36 2, .old 16 30, .pop, .pop,
      .push 16 30 3, .old 16 30, .pop, .push 16 30 4, .old 0 0, .pop], [30]) := by decide +kernel

example : (dumpHeap ring ringInfo 100 [16]).bind readDump =
    some [.root 1, .words 1 4, .name 1 [65, 66], .edge 1 2, .words 2 2, .edge 2 1, .edge 2 1, .edge 1 1, .edge 1 0] := by decide +kernel

end Avian.HeapWalk
