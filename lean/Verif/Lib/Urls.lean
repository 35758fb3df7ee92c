import Verif.Lib.Numbers

/-
URLs (classpath/java/net/URL.java, classpath/java/net/URLStreamHandler.java). A string is the list of its UTF-16 code units; an index that
was not found is `none`. The handler of `jar:` (classpath/avian/jar/Handler.java) is modelled as well; opening connections is not.
-/
namespace Avian.Urls

structure Url where
  protocol : List Nat
  host : Option (List Nat)
  port : Int
  file : Option (List Nat)
  path : Option (List Nat)
  query : Option (List Nat)
  deriving DecidableEq

inductive Error where
  | malformed
  | numberFormat
  | runtime
  deriving DecidableEq

/-- String.indexOf(int), found or not (see `Lib/Strings`). -/
def indexOf (c : Nat) : List Nat → Option Nat
  | [] => none
  | x :: s => if x = c then some 0 else (indexOf c s).map (· + 1)

/-- String.lastIndexOf(int). -/
def lastIndexOf (c : Nat) : List Nat → Option Nat
  | [] => none
  | x :: s =>
    match lastIndexOf c s with
    | some i => some (i + 1)
    | none => if x = c then some 0 else none

/-- String.indexOf(String) for a text of two characters. -/
def indexOf2 (a b : Nat) : List Nat → Option Nat
  | [] => none
  | [_] => none
  | x :: y :: s => if x = a ∧ y = b then some 0 else (indexOf2 a b (y :: s)).map (· + 1)

/-- String.startsWith("//"). -/
def startsWithSlashes : List Nat → Bool
  | 47 :: 47 :: _ => true
  | _ => false

/-- Integer.parseInt(String). -/
def parsePort (s : List Nat) : Except Error Int :=
  match Numbers.parseInt s 10 with
  | .ok v => .ok v
  | .error _ => .error .numberFormat

/-- URL.java:97-113 `set`. -/
def set (protocol : List Nat) (host : Option (List Nat)) (port : Int) (file : Option (List Nat)) : Url :=
  match file with
  | none => ⟨protocol, host, port, none, none, none⟩
  | some f =>
    match lastIndexOf 63 f with
    | some q => ⟨protocol, host, port, file, some (f.take q), some (f.drop (q + 1))⟩
    | none => ⟨protocol, host, port, file, file, none⟩

/-- URLStreamHandler.java:26-43: host, port, and the rest of the text, after the slashes. -/
def hostPort (s : List Nat) : Except Error (Option (List Nat) × Int × List Nat) :=
  match indexOf 47 s with
  | none =>
    match indexOf 58 s with
    | none => .ok (some s, -1, [])
    | some colon =>
      match parsePort (s.drop (colon + 1)) with
      | .ok port => .ok (some (s.take colon), port, [])
      | .error e => .error e
  | some slash =>
    match indexOf 58 s with
    | none => .ok (some (s.take slash), -1, s.drop slash)
    | some colon =>
      if colon > slash then .ok (some (s.take slash), -1, s.drop slash)
      else
        match parsePort ((s.take slash).drop (colon + 1)) with
        | .ok port => .ok (some (s.take colon), port, s.drop slash)
        | .error e => .error e

/-- URLStreamHandler.java:22-44: the same, if there are slashes. -/
def authority (s : List Nat) : Except Error (Option (List Nat) × Int × List Nat) :=
  if startsWithSlashes s then hostPort (s.drop 2) else .ok (none, -1, s)

/-- URLStreamHandler.java:16-52 `parseURL`. -/
def parseURL (s : List Nat) (start : Nat) : Except Error Url :=
  match authority (s.drop start) with
  | .error e => .error e
  | .ok (host, port, rest) => .ok (set (s.take (start - 1)) host port (if rest.length > 0 then some rest else none))

/-- URL.java:81-95 `findHandler`: the protocols whose handler inherits `parseURL`. -/
def plain (protocol : List Nat) : Bool :=
  protocol == "http".toList.map Char.toNat || protocol == "https".toList.map Char.toNat ||
  protocol == "avianvmresource".toList.map Char.toNat || protocol == "file".toList.map Char.toNat

/-- URL.java:26-35, the place of the colon after the protocol. -/
def protocolEnd (s : List Nat) : Option Nat :=
  match indexOf 58 s with
  | none => none
  | some colon =>
    match indexOf 47 s with
    | none => if colon > 0 then some colon else none
    | some slash => if colon > 0 ∧ colon < slash then some colon else none

/-- URL.java:26-35 with a handler that inherits `parseURL`. -/
def parsePlain (s : List Nat) : Except Error Url :=
  match protocolEnd s with
  | none => .error .malformed
  | some colon => if plain (s.take colon) then parseURL s (colon + 1) else .error .malformed

/-- URL.java:26-35, the constructor; avian/jar/Handler.java:29-46 for `jar:`, where the URL of the file, if it is a `jar:` URL itself, is
malformed, because no "!/" is left in it. -/
def parse (s : List Nat) : Except Error Url :=
  match protocolEnd s with
  | none => .error .malformed
  | some colon =>
    if s.take colon = "jar".toList.map Char.toNat then
      match indexOf2 33 47 (s.drop 4) with
      | none => .error .malformed
      | some index =>
        match parsePlain ((s.drop 4).take index) with
        | .error e => .error e
        | .ok u =>
          if u.protocol = "file".toList.map Char.toNat then .ok (set ("jar".toList.map Char.toNat) none (-1) (some (s.drop 4)))
          else .error .runtime
    else parsePlain s

/-- StringBuilder.append(int). -/
def portText (port : Int) : List Nat :=
  match Numbers.toString 65 port 10 with
  | some (.ok s) => s
  | _ => []

/-- URLStreamHandler.java:65-78 `toExternalForm`. -/
def toExternalForm (u : Url) : List Nat :=
  let sb := u.protocol ++ [58]
  let sb := match u.host with
    | some h =>
      let sb := sb ++ [47, 47] ++ h
      if u.port ≥ 0 then sb ++ [58] ++ portText u.port else sb
    | none => sb
  match u.file with
  | some f => sb ++ f
  | none => sb

end Avian.Urls
