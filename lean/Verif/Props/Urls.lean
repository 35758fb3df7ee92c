import Verif.Lib.Urls
import Verif.Props.Numbers

/-
C113: URLs.
-/
namespace Avian.Urls

/-! ## Specification: the text of the parts -/

/-- Host and port. -/
inductive Authority where
  | nothing
  | host (h : List Nat)
  | hostPort (h : List Nat) (port : Int) (digits : List Nat)

def Authority.text : Authority → List Nat
  | .nothing => []
  | .host h => 47 :: 47 :: h
  | .hostPort h _ digits => 47 :: 47 :: (h ++ 58 :: digits)

def Authority.getHost : Authority → Option (List Nat)
  | .nothing => none
  | .host h => some h
  | .hostPort h _ _ => some h

def Authority.getPort : Authority → Int
  | .nothing => -1
  | .host _ => -1
  | .hostPort _ p _ => p

/-- The host has no colon and no slash, the port is a number without leading zeros, and a file after a host begins with a slash. -/
def Fine (a : Authority) (file : List Nat) : Prop :=
  match a with
  | .nothing => startsWithSlashes file = false
  | .host h => (∀ c ∈ h, c ≠ 58 ∧ c ≠ 47) ∧ (file = [] ∨ file.head? = some 47)
  | .hostPort h port digits => (∀ c ∈ h, c ≠ 58 ∧ c ≠ 47) ∧ 0 ≤ port ∧ port < 2 ^ 31 ∧ Numbers.Numeral 10 port digits ∧ (file = [] ∨ file.head? = some 47)

def text (protocol : List Nat) (a : Authority) (file : List Nat) : List Nat := protocol ++ 58 :: (a.text ++ file)

/-- Path and query of a file: the query is what is behind the last question mark. -/
def Splits (file : Option (List Nat)) (path query : Option (List Nat)) : Prop :=
  match file, path, query with
  | none, none, none => True
  | some f, some p, none => f = p ∧ ∀ c ∈ p, c ≠ 63
  | some f, some p, some q => f = p ++ 63 :: q ∧ ∀ c ∈ q, c ≠ 63
  | _, _, _ => False

def fileOf (file : List Nat) : Option (List Nat) := if file = [] then none else some file

/-! ## Searching -/

theorem indexOf_none (c : Nat) (s : List Nat) (h : ∀ x ∈ s, x ≠ c) : indexOf c s = none := by
  induction s with
  | nil => rfl
  | cons x s ih => rw [indexOf, if_neg (h x (List.mem_cons_self ..)), ih (fun y hy => h y (List.mem_cons_of_mem _ hy))]; rfl

theorem indexOf_at (c : Nat) (a b : List Nat) (h : ∀ x ∈ a, x ≠ c) : indexOf c (a ++ c :: b) = some a.length := by
  induction a with
  | nil => rw [List.nil_append, indexOf, if_pos rfl]; rfl
  | cons x a ih =>
    rw [List.cons_append, indexOf, if_neg (h x (List.mem_cons_self ..)), ih (fun y hy => h y (List.mem_cons_of_mem _ hy))]; rfl

/-- Before what is found there is nothing to be found. -/
theorem indexOf_split (c : Nat) (s : List Nat) (i : Nat) (h : indexOf c s = some i) :
    ∃ a b, s = a ++ c :: b ∧ a.length = i ∧ ∀ x ∈ a, x ≠ c := by
  induction s generalizing i with
  | nil => cases h
  | cons x s ih =>
    rw [indexOf] at h
    by_cases hx : x = c
    · rw [if_pos hx] at h
      cases h
      exact ⟨[], s, by rw [hx]; rfl, rfl, fun _ h => by cases h⟩
    · rw [if_neg hx] at h
      cases hi : indexOf c s with
      | none => rw [hi] at h; cases h
      | some j =>
        rw [hi] at h
        cases h
        obtain ⟨a, b, h1, h2, h3⟩ := ih j hi
        refine ⟨x :: a, b, by rw [h1]; rfl, by rw [List.length_cons, h2], fun y hy => ?_⟩
        rcases List.mem_cons.mp hy with h | h
        · rw [h]; exact hx
        · exact h3 y h

theorem indexOf_notMem (c : Nat) (s : List Nat) (h : indexOf c s = none) : ∀ x ∈ s, x ≠ c := by
  induction s with
  | nil => intro _ h; cases h
  | cons x s ih =>
    rw [indexOf] at h
    by_cases hx : x = c
    · rw [if_pos hx] at h; cases h
    · rw [if_neg hx, Option.map_eq_none_iff] at h
      intro y hy
      rcases List.mem_cons.mp hy with h' | h'
      · rw [h']; exact hx
      · exact ih h y h'

theorem lastIndexOf_none (c : Nat) (s : List Nat) (h : lastIndexOf c s = none) : ∀ x ∈ s, x ≠ c := by
  induction s with
  | nil => intro _ h; cases h
  | cons x s ih =>
    rw [lastIndexOf] at h
    cases hl : lastIndexOf c s with
    | some i => rw [hl] at h; cases h
    | none =>
      rw [hl] at h
      simp only at h
      by_cases hx : x = c
      · rw [if_pos hx] at h; cases h
      · intro y hy
        rcases List.mem_cons.mp hy with h' | h'
        · rw [h']; exact hx
        · exact ih hl y h'

theorem lastIndexOf_split (c : Nat) (s : List Nat) (i : Nat) (h : lastIndexOf c s = some i) :
    s = s.take i ++ c :: s.drop (i + 1) ∧ ∀ x ∈ s.drop (i + 1), x ≠ c := by
  induction s generalizing i with
  | nil => cases h
  | cons x s ih =>
    rw [lastIndexOf] at h
    cases hl : lastIndexOf c s with
    | some j =>
      rw [hl] at h
      cases h
      obtain ⟨h1, h2⟩ := ih j hl
      refine ⟨?_, by simpa using h2⟩
      rw [List.take_succ_cons, List.drop_succ_cons, List.cons_append, ← h1]
    | none =>
      rw [hl] at h
      simp only at h
      by_cases hx : x = c
      · rw [if_pos hx] at h
        cases h
        refine ⟨by rw [hx]; rfl, ?_⟩
        simpa using lastIndexOf_none c s hl
      · rw [if_neg hx] at h; cases h

/-! ## Path and query -/

theorem set_splits (protocol : List Nat) (host : Option (List Nat)) (port : Int) (file : Option (List Nat)) :
    Splits file (set protocol host port file).path (set protocol host port file).query := by
  unfold set
  cases file with
  | none => trivial
  | some f =>
    simp only
    cases h : lastIndexOf 63 f with
    | none => exact ⟨rfl, lastIndexOf_none 63 f h⟩
    | some q => exact lastIndexOf_split 63 f q h

theorem set_parts (protocol : List Nat) (host : Option (List Nat)) (port : Int) (file : Option (List Nat)) :
    (set protocol host port file).protocol = protocol ∧ (set protocol host port file).host = host ∧ (set protocol host port file).port = port ∧
    (set protocol host port file).file = file := by
  unfold set
  cases file with
  | none => exact ⟨rfl, rfl, rfl, rfl⟩
  | some f =>
    simp only
    cases lastIndexOf 63 f <;> exact ⟨rfl, rfl, rfl, rfl⟩

/-! ## Reading the parts -/

theorem digits_of (port : Int) (h0 : 0 ≤ port) (digits : List Nat) (h : Numbers.Numeral 10 port digits) : ∀ c ∈ digits, 48 ≤ c ∧ c ≤ 57 := by
  obtain ⟨ds, h1, _, _, _, h5⟩ := h
  rw [if_neg (by omega), List.nil_append] at h5
  subst h5
  intro c hc
  obtain ⟨d, hd, rfl⟩ := List.mem_map.mp hc
  have := h1 d hd
  rw [Numbers.letter, if_pos this]
  omega

theorem parsePort_ok (port : Int) (h0 : 0 ≤ port) (h1 : port < 2 ^ 31) (digits : List Nat) (h : Numbers.Numeral 10 port digits) :
    parsePort digits = .ok port := by
  have := Numbers.parse_numeral 10 (by omega) (by omega) port (by omega) (by omega) digits h
  unfold parsePort Numbers.parseInt
  rw [show ((10 : Nat) : Int) = 10 from rfl] at this
  rw [this]
  show Except.ok (Numbers.wrap32 port) = _
  congr 1
  exact Int.bmod_eq_of_le (by omega) (by omega)

theorem authority_slashes (s : List Nat) : authority (47 :: 47 :: s) = hostPort s := by
  rw [authority, show startsWithSlashes (47 :: 47 :: s) = true from rfl, if_pos rfl]
  rfl

theorem authority_ok (a : Authority) (file : List Nat) (h : Fine a file) :
    authority (a.text ++ file) = .ok (a.getHost, a.getPort, file) := by
  cases a with
  | nothing =>
    rw [authority, Authority.text, List.nil_append, h]
    rfl
  | host hs =>
    obtain ⟨h1, h2⟩ := h
    show authority (47 :: 47 :: (hs ++ file)) = _
    rw [authority_slashes, hostPort]
    cases file with
    | nil =>
      rw [List.append_nil, indexOf_none 47 hs (fun c hc => (h1 c hc).2), indexOf_none 58 hs (fun c hc => (h1 c hc).1)]
      simp [Authority.getHost, Authority.getPort]
    | cons f file =>
      have hf : f = 47 := by simpa using h2
      subst hf
      rw [indexOf_at 47 hs file (fun c hc => (h1 c hc).2)]
      simp only
      cases hc : indexOf 58 (hs ++ 47 :: file) with
      | none => simp [Authority.getHost, Authority.getPort]
      | some colon =>
        have : colon > hs.length := by
          obtain ⟨x, y, e1, e2, e3⟩ := indexOf_split 58 _ colon hc
          apply Classical.byContradiction
          intro hle
          have hx : (hs ++ 47 :: file)[colon]? = some 58 := by rw [e1, ← e2]; simp
          by_cases hl : colon < hs.length
          · rw [List.getElem?_append_left hl] at hx
            exact (h1 58 (List.mem_of_getElem? hx)).1 rfl
          · rw [show colon = hs.length by omega] at hx
            simp at hx
        simp only
        rw [if_pos this]
        simp [Authority.getHost, Authority.getPort]
  | hostPort hs port digits =>
    obtain ⟨h1, h2, h3, h4, h5⟩ := h
    have hd := digits_of port h2 digits h4
    have hp := parsePort_ok port h2 h3 digits h4
    have e : (Authority.hostPort hs port digits).text ++ file = 47 :: 47 :: (hs ++ 58 :: (digits ++ file)) := by
      simp [Authority.text]
    rw [e, authority_slashes, hostPort]
    have hslash : ∀ c ∈ hs ++ 58 :: digits, c ≠ 47 := by
      intro c hc
      rcases List.mem_append.mp hc with h | h
      · exact (h1 c h).2
      · rcases List.mem_cons.mp h with h | h
        · omega
        · have := hd c h; omega
    have hcolon := indexOf_at 58 hs (digits ++ file) (fun c hc => (h1 c hc).1)
    cases file with
    | nil =>
      rw [List.append_nil] at *
      rw [indexOf_none 47 _ hslash]
      simp only
      rw [hcolon]
      simp only
      rw [show (hs ++ 58 :: digits).drop (hs.length + 1) = digits by simp [List.drop_append], hp]
      simp [Authority.getHost, Authority.getPort]
    | cons f file =>
      have hf : f = 47 := by simpa using h5
      subst hf
      have e2 : hs ++ 58 :: (digits ++ 47 :: file) = (hs ++ 58 :: digits) ++ 47 :: file := by simp
      have hs47 := indexOf_at 47 (hs ++ 58 :: digits) file hslash
      rw [← e2] at hs47
      rw [hs47]
      simp only
      rw [hcolon]
      simp only
      rw [if_neg (by simp), e2, List.take_left, List.drop_left, show (hs ++ 58 :: digits).drop (hs.length + 1) = digits by simp [List.drop_append], hp]
      simp [Authority.getHost, Authority.getPort]

theorem plain_fine (protocol : List Nat) (h : plain protocol = true) :
    (∀ c ∈ protocol, c ≠ 58 ∧ c ≠ 47) ∧ 0 < protocol.length ∧ protocol ≠ "jar".toList.map Char.toNat := by
  unfold plain at h
  simp only [Bool.or_eq_true, beq_iff_eq] at h
  rcases h with ((h | h) | h) | h <;> subst h <;> decide +kernel

theorem protocolEnd_ok (protocol rest : List Nat) (h : ∀ c ∈ protocol, c ≠ 58 ∧ c ≠ 47) (h0 : 0 < protocol.length) :
    protocolEnd (protocol ++ 58 :: rest) = some protocol.length := by
  unfold protocolEnd
  rw [indexOf_at 58 protocol rest (fun c hc => (h c hc).1)]
  simp only
  cases hs : indexOf 47 (protocol ++ 58 :: rest) with
  | none => exact if_pos h0
  | some slash =>
    refine if_pos ⟨h0, ?_⟩
    obtain ⟨x, y, e1, e2, e3⟩ := indexOf_split 47 _ slash hs
    apply Classical.byContradiction
    intro hle
    have hx : (protocol ++ 58 :: rest)[slash]? = some 47 := by rw [e1, ← e2]; simp
    by_cases hl : slash < protocol.length
    · rw [List.getElem?_append_left hl] at hx
      exact (h 47 (List.mem_of_getElem? hx)).2 rfl
    · rw [show slash = protocol.length by omega] at hx
      simp at hx

/-- A URL made of parts has these parts. -/
theorem parse_parts (protocol : List Nat) (hp : plain protocol = true) (a : Authority) (file : List Nat) (h : Fine a file) :
    ∃ u, parse (text protocol a file) = .ok u ∧ u.protocol = protocol ∧ u.host = a.getHost ∧ u.port = a.getPort ∧ u.file = fileOf file ∧
      Splits u.file u.path u.query := by
  obtain ⟨p1, p2, p3⟩ := plain_fine protocol hp
  have hf : (if file.length > 0 then some file else none) = fileOf file := by
    cases file <;> simp [fileOf]
  have hd : (protocol ++ 58 :: (a.text ++ file)).drop (protocol.length + 1) = a.text ++ file := by simp [List.drop_append]
  refine ⟨set protocol a.getHost a.getPort (fileOf file), ?_, (set_parts ..).1, (set_parts ..).2.1, (set_parts ..).2.2.1, (set_parts ..).2.2.2, ?_⟩
  · unfold parse parsePlain text
    rw [protocolEnd_ok protocol _ p1 p2]
    simp only [List.take_left]
    rw [if_neg p3, if_pos hp, parseURL, hd, authority_ok a file h]
    simp only [Nat.add_sub_cancel, List.take_left, hf]
  · rw [(set_parts ..).2.2.2]
    exact set_splits ..

/-! ## Writing the parts -/

theorem numeral_unique (port : Int) (h0 : 0 ≤ port) (h1 : port < 2 ^ 31) : Numbers.Numeral 10 port (portText port) := by
  obtain ⟨s, hs, hn⟩ := Numbers.toString_numeral 10 (by omega) (by omega) port (by omega) (by omega)
  have := hs 65 (Nat.le_refl _)
  rw [show ((10 : Nat) : Int) = 10 from rfl] at this
  rw [portText, this]
  exact hn

/-- The authority as it is written. -/
def written (host : Option (List Nat)) (port : Int) : Authority :=
  match host with
  | none => .nothing
  | some h => if 0 ≤ port then .hostPort h port (portText port) else .host h

/-- What is written is the text of the parts. -/
theorem toExternalForm_text (u : Url) : toExternalForm u = text u.protocol (written u.host u.port) (u.file.getD []) := by
  unfold toExternalForm text written
  cases u.host with
  | none => cases u.file <;> simp [Authority.text]
  | some h =>
    by_cases hp : 0 ≤ u.port
    · cases u.file <;> simp [Authority.text, hp]
    · cases u.file <;> simp [Authority.text, hp]

/-- Writing a URL and reading it gives the same URL. -/
theorem parse_written (protocol : List Nat) (hp : plain protocol = true) (host : Option (List Nat)) (port : Int) (file : List Nat)
    (hn : host = none → port = -1 ∧ startsWithSlashes file = false)
    (hh : ∀ h, host = some h → (∀ c ∈ h, c ≠ 58 ∧ c ≠ 47) ∧ -1 ≤ port ∧ port < 2 ^ 31 ∧ (file = [] ∨ file.head? = some 47)) :
    parse (toExternalForm (set protocol host port (fileOf file))) = .ok (set protocol host port (fileOf file)) := by
  obtain ⟨s1, s2, s3, s4⟩ := set_parts protocol host port (fileOf file)
  rw [toExternalForm_text, s1, s2, s3, s4]
  have hfile : (fileOf file).getD [] = file := by cases file <;> simp [fileOf]
  rw [hfile]
  have hfine : Fine (written host port) file ∧ (written host port).getHost = host ∧ (written host port).getPort = port := by
    cases host with
    | none => exact ⟨(hn rfl).2, rfl, (hn rfl).1.symm⟩
    | some h =>
      obtain ⟨g1, g2, g3, g4⟩ := hh h rfl
      unfold written
      by_cases h0 : 0 ≤ port
      · simp only [h0, if_true]
        exact ⟨⟨g1, h0, g3, numeral_unique port h0 g3, g4⟩, rfl, rfl⟩
      · simp only [h0, if_false]
        exact ⟨⟨g1, g4⟩, rfl, (by rw [Authority.getPort]; omega)⟩
  obtain ⟨f1, f2, f3⟩ := hfine
  obtain ⟨p1, p2, p3⟩ := plain_fine protocol hp
  have hf : (if file.length > 0 then some file else none) = fileOf file := by
    cases file <;> simp [fileOf]
  have hd : (protocol ++ 58 :: ((written host port).text ++ file)).drop (protocol.length + 1) = (written host port).text ++ file := by simp [List.drop_append]
  unfold parse parsePlain text
  rw [protocolEnd_ok protocol _ p1 p2]
  simp only [List.take_left]
  rw [if_neg p3, if_pos hp, parseURL, hd, authority_ok _ file f1, f2, f3]
  simp only [Nat.add_sub_cancel, List.take_left, hf]

/-! ## Whatever is read -/

theorem split_at (c : Nat) (s : List Nat) (i : Nat) (h : indexOf c s = some i) : s = s.take i ++ c :: s.drop (i + 1) := by
  obtain ⟨a, b, h1, h2, _⟩ := indexOf_split c s i h
  subst h2
  rw [h1]
  simp [List.drop_append]

theorem hostPort_read (s : List Nat) (host : Option (List Nat)) (port : Int) (rest : List Nat) (h : hostPort s = .ok (host, port, rest)) :
    (∃ x, host = some x ∧ port = -1 ∧ s = x ++ rest) ∨ ∃ x p, host = some x ∧ parsePort p = .ok port ∧ s = x ++ 58 :: (p ++ rest) := by
  unfold hostPort at h
  cases hs : indexOf 47 s with
  | none =>
    rw [hs] at h
    simp only at h
    cases hc : indexOf 58 s with
    | none =>
      rw [hc] at h
      cases h
      exact .inl ⟨s, rfl, rfl, by rw [List.append_nil]⟩
    | some colon =>
      rw [hc] at h
      simp only at h
      cases hp : parsePort (s.drop (colon + 1)) with
      | error e => rw [hp] at h; cases h
      | ok p =>
        rw [hp] at h
        cases h
        exact .inr ⟨_, _, rfl, hp, by rw [List.append_nil]; exact split_at 58 s colon hc⟩
  | some slash =>
    rw [hs] at h
    simp only at h
    have hts : s = s.take slash ++ s.drop slash := (List.take_append_drop slash s).symm
    cases hc : indexOf 58 s with
    | none =>
      rw [hc] at h
      cases h
      exact .inl ⟨_, rfl, rfl, hts⟩
    | some colon =>
      rw [hc] at h
      simp only at h
      by_cases hgt : colon > slash
      · rw [if_pos hgt] at h
        cases h
        exact .inl ⟨_, rfl, rfl, hts⟩
      · rw [if_neg hgt] at h
        cases hp : parsePort ((s.take slash).drop (colon + 1)) with
        | error e => rw [hp] at h; cases h
        | ok p =>
          rw [hp] at h
          cases h
          refine .inr ⟨_, _, rfl, hp, ?_⟩
          obtain ⟨a, b, h1, h2, _⟩ := indexOf_split 58 s colon hc
          obtain ⟨a', b', h1', h2', _⟩ := indexOf_split 47 s slash hs
          have hne : colon ≠ slash := by
            intro he
            have e1 : s[colon]? = some 58 := by rw [h1, ← h2]; simp
            have e2 : s[slash]? = some 47 := by rw [h1', ← h2']; simp
            rw [he, e2] at e1
            cases e1
          have e : s.take slash = s.take colon ++ 58 :: (s.take slash).drop (colon + 1) := by
            subst h2
            rw [h1]
            obtain ⟨k, hk⟩ : ∃ k, slash = a.length + 1 + k := ⟨slash - (a.length + 1), by omega⟩
            subst hk
            rw [List.take_left, Nat.add_assoc, List.take_length_add_append, Nat.add_comm 1 k, List.take_succ_cons]
            simp [List.drop_append]
          calc s = s.take slash ++ s.drop slash := hts
            _ = (s.take colon ++ 58 :: (s.take slash).drop (colon + 1)) ++ s.drop slash := by rw [← e]
            _ = _ := by simp

theorem protocolEnd_read (s : List Nat) (colon : Nat) (h : protocolEnd s = some colon) : s = s.take colon ++ 58 :: s.drop (colon + 1) := by
  apply split_at
  unfold protocolEnd at h
  cases hc : indexOf 58 s with
  | none => rw [hc] at h; cases h
  | some c =>
    rw [hc] at h
    simp only at h
    split at h <;> split at h <;> cases h <;> rfl

/-- What is read with `file` is written with the same text, but for the text of the port. -/
def Same (s : List Nat) (u : Url) : Prop :=
  toExternalForm u = s ∨
  ∃ h p file, u.host = some h ∧ u.file = fileOf file ∧ parsePort p = .ok u.port ∧ s = u.protocol ++ 58 :: 47 :: 47 :: (h ++ 58 :: (p ++ file))

theorem parsePlain_read (s : List Nat) (u : Url) (h : parsePlain s = .ok u) : Same s u := by
  unfold parsePlain at h
  cases hc : protocolEnd s with
  | none => rw [hc] at h; cases h
  | some colon =>
    rw [hc] at h
    simp only at h
    have hs := protocolEnd_read s colon hc
    by_cases hp : plain (s.take colon) = true
    · rw [if_pos hp, parseURL, Nat.add_sub_cancel] at h
      cases ha : authority (s.drop (colon + 1)) with
      | error e => rw [ha] at h; cases h
      | ok r =>
        obtain ⟨host, port, rest⟩ := r
        rw [ha] at h
        simp only [Except.ok.injEq] at h
        have hf : (if rest.length > 0 then some rest else none) = fileOf rest := by
          cases rest <;> simp [fileOf]
        have hfile : (fileOf rest).getD [] = rest := by cases rest <;> simp [fileOf]
        rw [hf] at h
        obtain ⟨s1, s2, s3, s4⟩ := set_parts (s.take colon) host port (fileOf rest)
        rw [h] at s1 s2 s3 s4
        unfold authority at ha
        by_cases hss : startsWithSlashes (s.drop (colon + 1)) = true
        · rw [if_pos hss] at ha
          have hsl : s.drop (colon + 1) = 47 :: 47 :: (s.drop (colon + 1)).drop 2 := by
            generalize s.drop (colon + 1) = x at hss
            unfold startsWithSlashes at hss
            split at hss
            · rfl
            · cases hss
          rcases hostPort_read _ _ _ _ ha with ⟨x, e1, e2, e3⟩ | ⟨x, p, e1, e2, e3⟩
          · refine .inl ?_
            rw [toExternalForm_text, s1, s2, s3, s4, hfile, e1, e2]
            show s.take colon ++ 58 :: ((47 :: 47 :: x) ++ rest) = s
            rw [e3] at hsl
            rw [List.cons_append, List.cons_append, ← hsl]
            exact hs.symm
          · refine .inr ⟨x, p, rest, by rw [s2, e1], s4, by rw [s3]; exact e2, ?_⟩
            rw [e3] at hsl
            rw [s1, ← hsl]
            exact hs
        · rw [if_neg hss] at ha
          cases ha
          refine .inl ?_
          rw [toExternalForm_text, s1, s2, s4, hfile]
          exact hs.symm
    · rw [if_neg hp] at h; cases h

/-- Reading a URL and writing it gives the same text, but for the text of the port. -/
theorem parse_read (s : List Nat) (u : Url) (h : parse s = .ok u) : Same s u := by
  unfold parse at h
  cases hc : protocolEnd s with
  | none => rw [hc] at h; cases h
  | some colon =>
    rw [hc] at h
    simp only at h
    have hs := protocolEnd_read s colon hc
    by_cases hj : s.take colon = "jar".toList.map Char.toNat
    · rw [if_pos hj] at h
      have h4 : colon = 3 := by
        have h1 := congrArg List.length hj
        have h2 : s.length = (s.take colon).length + ((s.drop (colon + 1)).length + 1) := by
          rw [congrArg List.length hs, List.length_append, List.length_cons]
        rw [List.length_drop, List.length_take] at h2
        rw [List.length_take, show (("jar".toList.map Char.toNat).length) = 3 from by decide +kernel] at h1
        omega
      subst h4
      cases hi : indexOf2 33 47 (s.drop 4) with
      | none => rw [hi] at h; cases h
      | some index =>
        rw [hi] at h
        simp only at h
        cases hq : parsePlain ((s.drop 4).take index) with
        | error e => rw [hq] at h; cases h
        | ok v =>
          rw [hq] at h
          simp only at h
          split at h
          · simp only [Except.ok.injEq] at h
            obtain ⟨s1, s2, s3, s4⟩ := set_parts ("jar".toList.map Char.toNat) none (-1) (some (s.drop 4))
            rw [h] at s1 s2 s3 s4
            refine .inl ?_
            rw [toExternalForm_text, s1, s2, s4, ← hj]
            exact hs.symm
          · cases h
    · rw [if_neg hj] at h
      exact parsePlain_read s u h

/-! ## Entries of archives -/

theorem indexOf2_at (x e : List Nat) (h : indexOf2 33 47 x = none) : indexOf2 33 47 (x ++ 33 :: 47 :: e) = some x.length := by
  induction x with
  | nil => rw [List.nil_append, indexOf2, if_pos ⟨rfl, rfl⟩]; rfl
  | cons a x ih =>
    cases x with
    | nil =>
      show indexOf2 33 47 (a :: 33 :: 47 :: e) = _
      rw [indexOf2, if_neg (by omega), indexOf2, if_pos ⟨rfl, rfl⟩]
      rfl
    | cons b x =>
      rw [indexOf2] at h
      by_cases hab : a = 33 ∧ b = 47
      · rw [if_pos hab] at h; cases h
      · rw [if_neg hab, Option.map_eq_none_iff] at h
        show indexOf2 33 47 (a :: b :: (x ++ 33 :: 47 :: e)) = _
        rw [indexOf2, if_neg hab]
        have := ih h
        rw [List.cons_append] at this
        rw [this]
        rfl

/-- The URL of an entry of an archive has the URL of the archive and the name of the entry as its file. -/
theorem jar_ok (x e : List Nat) (u : Url) (hx : parse x = .ok u) (hf : u.protocol = "file".toList.map Char.toNat) (hn : indexOf2 33 47 x = none) :
    ∃ v, parse ("jar:".toList.map Char.toNat ++ (x ++ 33 :: 47 :: e)) = .ok v ∧ v.host = none ∧ v.file = some (x ++ 33 :: 47 :: e) := by
  have hp : parsePlain x = .ok u := by
    unfold parse at hx
    cases hc : protocolEnd x with
    | none => rw [hc] at hx; cases hx
    | some colon =>
      rw [hc] at hx
      simp only at hx
      by_cases hj : x.take colon = "jar".toList.map Char.toNat
      · rw [if_pos hj] at hx
        cases hi : indexOf2 33 47 (x.drop 4) with
        | none => rw [hi] at hx; cases hx
        | some index =>
          rw [hi] at hx
          simp only at hx
          cases hq : parsePlain ((x.drop 4).take index) with
          | error e => rw [hq] at hx; cases hx
          | ok v =>
            rw [hq] at hx
            simp only at hx
            split at hx
            · simp only [Except.ok.injEq] at hx
              rw [← hx, (set_parts ..).1] at hf
              exact absurd hf (by decide +kernel)
            · cases hx
      · rw [if_neg hj] at hx
        exact hx
  have e0 : "jar:".toList.map Char.toNat = [106, 97, 114, 58] := by decide +kernel
  have e1 : "jar".toList.map Char.toNat = [106, 97, 114] := by decide +kernel
  refine ⟨set ("jar".toList.map Char.toNat) none (-1) (some (x ++ 33 :: 47 :: e)), ?_, (set_parts ..).2.1, (set_parts ..).2.2.2⟩
  have hpe := protocolEnd_ok [106, 97, 114] (x ++ 33 :: 47 :: e) (by decide) (by decide)
  unfold parse
  rw [e0, e1]
  show (match protocolEnd ([106, 97, 114] ++ 58 :: (x ++ 33 :: 47 :: e)) with | none => _ | some colon => _) = _
  rw [hpe]
  simp only [List.length_cons, List.length_nil, List.cons_append, List.nil_append, List.take_succ_cons, List.take_zero, List.drop_succ_cons, List.drop_zero, if_true,
    indexOf2_at x e hn, List.take_left, hp, hf]

/-! ## Examples -/

def chars (s : String) : List Nat := s.toList.map Char.toNat

example : parse (chars "http://example.org:8080/a/b?x=1") =
    .ok ⟨chars "http", some (chars "example.org"), 8080, some (chars "/a/b?x=1"), some (chars "/a/b"), some (chars "x=1")⟩ := by decide +kernel

example : parse (chars "file:a:b") = .ok ⟨chars "file", none, -1, some (chars "a:b"), some (chars "a:b"), none⟩ := by decide +kernel

example : parse (chars "http://h/x:y") = .ok ⟨chars "http", some (chars "h"), -1, some (chars "/x:y"), some (chars "/x:y"), none⟩ := by decide +kernel

example : parse (chars "jar:file:/a.jar!/b") = .ok ⟨chars "jar", none, -1, some (chars "file:/a.jar!/b"), some (chars "file:/a.jar!/b"), none⟩ := by decide +kernel

example : parse (chars "gopher:x") = .error .malformed ∧ parse (chars "/a:b") = .error .malformed ∧ parse (chars "http://h:x/") = .error .numberFormat ∧
    parse (chars "jar:http://h/a.jar!/b") = .error .runtime := by decide +kernel

example : Fine (.hostPort (chars "h") 80 (chars "80")) (chars "/x") := by
  refine ⟨by decide, by decide, by decide, ⟨[8, 0], by decide, by decide, by decide, by decide +kernel, by decide +kernel⟩, .inr rfl⟩

/-- A port that is missing behind its colon is 0, a negative one is dropped. -/
theorem port_changes : ((parse (chars "http://h:/")).map toExternalForm) = .ok (chars "http://h:0/") ∧
    ((parse (chars "http://h:-5/")).map toExternalForm) = .ok (chars "http://h/") := by decide +kernel

end Avian.Urls
