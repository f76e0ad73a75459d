import Verif.Obj
import Verif.CStr
import Verif.Md5.Model
import Verif.Sha1.Model
/-!
# MessageDigest

`/repo/library/Java/Security/MessageDigest/MessageDigest.cpp` and the two engines
`MD5MessageDigest.cpp` and `SHA1MessageDigest.cpp`. The engine a `MessageDigest`
points to is part of its state; copies of the object, which would share it, are in
`Verif/Digest/Copy.lean`.
-/
namespace Verif.Digest

/-- MD5MessageDigest.hpp:51-54: the fields. -/
structure Md5Engine where
  hash : List Byte
  state : Md5.State
  isFinished : Bool
deriving DecidableEq, Repr

/-- SHA1MessageDigest.hpp: the fields. -/
structure Sha1Engine where
  hash : List Byte
  state : Sha1.Ctx
  isFinished : Bool
deriving DecidableEq, Repr

/-- The engine behind `MessageDigest::spi`. -/
inductive Engine
  | md5 (e : Md5Engine)
  | sha1 (e : Sha1Engine)
deriving DecidableEq, Repr

/-- MessageDigest.hpp:55-56: the fields. -/
structure Obj where
  spi : Engine
  algorithm : List Byte
deriving DecidableEq, Repr

/-- MD5MessageDigest.cpp:56-60 and SHA1MessageDigest.cpp:34-38 `engineReset`. -/
def engineReset : Engine → Engine
  | .md5 e => .md5 ⟨List.replicate 16 0#8, Md5.init e.state.buf, false⟩
  | .sha1 _ => .sha1 ⟨List.replicate 20 0#8, Sha1.init, false⟩

/-- MD5MessageDigest.cpp:31-33: the constructor; `buf` is what the memory of the
buffer held. -/
def newMd5 (buf : List Byte) : Engine := engineReset (.md5 ⟨[], Md5.init buf, false⟩)

/-- SHA1MessageDigest.cpp:9-11: the constructor. -/
def newSha1 : Engine := engineReset (.sha1 ⟨[], Sha1.init, false⟩)

/-- MessageDigest.cpp:35-45 `getInstance`, without the text of the exception. -/
def getInstance (buf : List Byte) (algorithm : List Byte) : Outcome Obj :=
  if algorithm = txt "MD5" then .ok ⟨newMd5 buf, algorithm⟩
  else if algorithm = txt "SHA1" then .ok ⟨newSha1, algorithm⟩
  else .throw .noSuchAlgorithm

/-- MD5MessageDigest.cpp:52-54, SHA1MessageDigest.cpp:30-32 `engineGetDigestLength`. -/
def engineGetDigestLength : Engine → Int
  | .md5 _ => 16
  | .sha1 _ => 20

/-- MD5MessageDigest.cpp:62-64, SHA1MessageDigest.cpp:40-42 `engineUpdate`; `input` is
what can be read from the pointer. -/
def engineUpdate (m : Sem) (input : List Byte) (len : Int) : Engine → Outcome Engine
  | .md5 e => do
    let s ← Md5.append m e.state input len
    .ok (.md5 { e with state := s })
  | .sha1 e => do
    let s ← Sha1.update e.state input len
    .ok (.sha1 { e with state := s })

/-- MD5MessageDigest.cpp:43-45, SHA1MessageDigest.cpp:21-23: finish unless
`isFinished`, which no code sets. -/
def engineFinish (m : Sem) : Engine → Outcome Engine
  | .md5 e =>
    if !e.isFinished then do
      let r ← Md5.finish m e.state
      .ok (.md5 { e with state := r.1, hash := r.2 })
    else .ok (.md5 e)
  | .sha1 e =>
    if !e.isFinished then do
      let r ← Sha1.final 64 e.state
      .ok (.sha1 { e with state := r.1, hash := r.2 })
    else .ok (.sha1 e)

def Engine.hash : Engine → List Byte
  | .md5 e => e.hash
  | .sha1 e => e.hash

/-- What a call gives back: nothing, a number, a text, or the number and the output
buffer after `digest`. -/
inductive Ans
  | unit
  | int (n : Int)
  | text (s : List Byte)
  | digest (n : Int) (buffer : List Byte)
deriving DecidableEq, Repr

/-- MD5MessageDigest.cpp:39-50, SHA1MessageDigest.cpp:17-28 `engineDigest`; `buffer`
is the memory behind the pointer. -/
def engineDigest (m : Sem) (buffer : List Byte) (len : Int) (e : Engine) : Outcome (Engine × Ans) :=
  if len < engineGetDigestLength e then .ok (e, .digest 0 buffer)
  else do
    let e ← engineFinish m e
    if buffer.length < e.hash.length then .ub
    else .ok (e, .digest (engineGetDigestLength e) (e.hash ++ buffer.drop e.hash.length))

/-- The calls. A null pointer is `none`. -/
inductive Op
  | getAlgorithm
  | getDigestLength
  | digest (buf : Option (List Byte)) (len : Int)
  | reset
  | update (input : Option (List Byte)) (len : Int)

/-- MessageDigest.cpp:53-83: the methods. -/
def step (m : Sem) : Op → OM Obj Ans
  | .getAlgorithm => fun o => .ret o (.text o.algorithm)
  | .getDigestLength => fun o => .ret o (.int (engineGetDigestLength o.spi))
  | .digest buf len => fun o =>
    match buf with
    | none => .exc o .interrupted
    | some b =>
      if len < engineGetDigestLength o.spi then .exc o .interrupted
      else
        match engineDigest m b len o.spi with
        | .ok (e, a) => .ret { o with spi := e } a
        | .throw x => .exc o x
        | .ub => .ub
        | .diverge => .diverge
  | .reset => fun o => .ret { o with spi := engineReset o.spi } .unit
  | .update input len => fun o =>
    match input with
    | none => .exc o .interrupted
    | some d =>
      if len = 0 then .exc o .interrupted
      else
        match engineUpdate m d len o.spi with
        | .ok e => .ret { o with spi := e } .unit
        | .throw x => .exc o x
        | .ub => .ub
        | .diverge => .diverge

end Verif.Digest
