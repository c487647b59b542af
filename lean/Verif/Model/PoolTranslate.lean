import Verif.Model.Pool
/-!
# The dictionary, with the buffers it takes from a pool and puts back

internal/translate/translate.go: the pool `kb` (line 119) is used here only.
-/
namespace Verif.Pl

/-- What the dictionary asks badger. -/
inductive TAsk where
  /-- `txn.Get` -/
  | get (k : Bytes)
  /-- `seq.Next` -/
  | next
  /-- the two `txn.Set` of translate.go:95-98, and the commit -/
  | set (k x ik key : Bytes)
deriving DecidableEq, Repr

inductive TAns where
  | missing
  | failed
  | value (v : Bytes)
  | id (n : Nat)
  | done
deriving Repr, Inhabited

/-- What is returned: a number, keys, an error, or a panic. -/
inductive TOut where
  | id (n : Nat)
  | key (k : Bytes)
  /-- the callback was called with these; `ok`: no error was returned -/
  | keys (ks : List Bytes) (ok : Bool)
  | err
  | panic
deriving DecidableEq, Repr

/-- `bytes.Buffer.Bytes`. -/
def Obj.bytes : Obj → Bytes
  | .buffer b => b
  | _ => []
/-- `bytes.Buffer.Write`. -/
def Obj.write (x : Bytes) : Obj → Obj
  | .buffer b => .buffer (b ++ x)
  | o => o
/-- `bytes.Buffer.Reset`. -/
def Obj.reset : Obj → Obj
  | .buffer b => .buffer (b.take 0)
  | o => o

abbrev T (α : Type) := Prog TAsk TAns α

/-- translate.go:85-98: a key that is new; `g` the buffer, which holds the key. -/
def addKey (ids key : Bytes) (g : Nat) : T TOut := do
  let a ← ask .next
  match a with
  | .id n => do
    let k ← look g
    let _ ← use g Obj.reset
    let _ ← use g (Obj.write ids)
    let ik ← use g (Obj.write (u64tob n))
    let a ← ask (.set k.bytes (u64tob n) ik.bytes key)
    match a with
    | .done => pure (.id n)
    | _ => pure .err
  | _ => pure .err

/-- translate.go:82-106: what is done with the answer. -/
def translateWith (ids key : Bytes) (g : Nat) : TAns → T TOut
  | .missing => addKey ids key g
  | .value v => match btou64 v with
    | none => pure .panic
    | some n => pure (.id n)
  | _ => pure .err

/-- translate.go:76-108 `TranslateKey`. The deferred `put` runs also after an error or a panic. Simplification: the commit of the transaction, which comes after the deferred `put`, is part of
`set`. -/
def translateKey (keys ids key : Bytes) : T TOut := do
  let g ← take .buffer
  let _ ← use g (Obj.write keys)
  let k ← use g (Obj.write key)
  let a ← ask (.get k.bytes)
  let r ← translateWith ids key g a
  give g
  pure r

/-- translate.go:34-50 `TranslateID`. -/
def translateID (ids : Bytes) (id : Nat) : T TOut := do
  let g ← take .buffer
  let _ ← use g (Obj.write ids)
  let k ← use g (Obj.write (u64tob id))
  let a ← ask (.get k.bytes)
  give g
  match a with
  | .value v => pure (.key v)
  | _ => pure .err

/-- translate.go:56-71: the loop over the ids; the callback returns nil. -/
def bulkLoop (ids : Bytes) (g : Nat) : List Nat → T (List Bytes × Bool)
  | [] => pure ([], true)
  | id :: rest => do
    let _ ← use g Obj.reset
    let _ ← use g (Obj.write ids)
    let k ← use g (Obj.write (u64tob id))
    let a ← ask (.get k.bytes)
    match a with
    | .value v => do
      let r ← bulkLoop ids g rest
      pure (v :: r.1, r.2)
    | _ => pure ([], false)

/-- translate.go:52-74 `TranslateBulkID`. -/
def translateBulk (ids : Bytes) (l : List Nat) : T TOut := do
  let g ← take .buffer
  let r ← bulkLoop ids g l
  give g
  pure (.keys r.1 r.2)

end Verif.Pl
