import Verif.JString.Model
import Verif.NumText.Model
/-!
# URLs and connections (Java/Net/URL, Java/Net/URLConnection)

A member of type `int`, `long` or `boolean` without an initial value is `none` until it is assigned;
reading it before, to copy it also, is undefined behaviour.
-/
namespace Verif.Net
open Verif.JString

/-- `URL` (Java/Net/URL/URL.hpp:44-50). -/
structure Url where
  protocol : Str
  host : Str
  port : Option Int
  path : Str
  query : Str
  deriving DecidableEq, Repr

/-- Java/Net/URL/URL.cpp:31-37. -/
def Url.empty : Url := ⟨[], [], some (-1), [], []⟩

/-- Java/Net/URL/URL.cpp:47-69: what would parse the text is commented out. -/
def Url.ofText (_spec : Str) : Url := ⟨[], [], none, [], []⟩

/-- Java/Net/URL/URL.cpp:39-45; the generated assignment does the same. -/
def Url.copy (u : Url) : Outcome Url :=
  match u.port with
  | none => .ub
  | some p => .ok ⟨u.protocol, u.host, some p, u.path, u.query⟩

/-- Java/Net/URL/URL.cpp:83-85. -/
def Url.getPort (u : Url) : Outcome Int :=
  match u.port with
  | none => .ub
  | some p => .ok p

/-- `String::valueOf(int)`. -/
def decimal (x : Int) : Str := if x < 0 then chr '-' :: NumText.digits 10 64 x.natAbs else NumText.digits 10 64 x.natAbs

/-- Java/Net/URL/URL.cpp:95-118. -/
def Url.text (u : Url) : Outcome Str :=
  match u.port with
  | none => .ub
  | some p =>
    let url := u.protocol ++ txt "://" ++ u.host
    let url := if p > -1 then url ++ txt ":" ++ decimal p else url
    let url := if u.path ≠ txt "/" then url ++ u.path else url
    let url := if u.query ≠ [] then url ++ txt "?" else url
    .ok (cstr (url ++ u.query))

/-- The settings of a connection (Java/Net/URLConnection/URLConnection.hpp:34-45). -/
inductive Setting
  | connectTimeout
  | readTimeout
  | doInput
  | doOutput
  | ifModifiedSince
  | allowUserInteraction
  | useCaches
  deriving DecidableEq, Repr

/-- `URLConnection`: its URL and its settings, a boolean as 0 or 1. -/
structure Conn where
  url : Url
  value : Setting → Option Int

/-- Java/Net/URLConnection/URLConnection.hpp:34-45: the initial values. -/
def initial : Setting → Option Int
  | .doInput => some 1
  | .doOutput => some 0
  | _ => none

/-- Java/Net/URLConnection/URLConnection.cpp:36-38 (the parameter and the member are copies). -/
def Conn.ofUrl (u : Url) : Outcome Conn :=
  u.copy.bind fun u' => u'.copy.bind fun u'' => .ok ⟨u'', initial⟩

/-- Java/Net/URLConnection/URLConnection.cpp:30-34. -/
def Conn.make : Outcome Conn := (Url.ofText []).copy.bind fun u => .ok ⟨u, initial⟩

/-- The setters (Java/Net/URLConnection/URLConnection.cpp:47-101). -/
def Conn.set (c : Conn) (s : Setting) (v : Int) : Conn :=
  { c with value := fun s' => if s' = s then some v else c.value s' }

/-- The getters (Java/Net/URLConnection/URLConnection.cpp:47-101). -/
def Conn.get (c : Conn) (s : Setting) : Outcome Int :=
  match c.value s with
  | none => .ub
  | some v => .ok v

/-- A history of assignments. -/
def Conn.run (c : Conn) : List (Setting × Int) → Conn
  | [] => c
  | (s, v) :: l => (c.set s v).run l

end Verif.Net
