import Verif.Model.Codec
import Verif.Model.Sha256
import Verif.Model.Text

/-!
# Running the model

A program, not a part of the proofs: reads operations with their arguments and prints what the model
returns. `difftest/compare.py` uses it to compare the model with a second rendering of the Rust code.
It models nothing of the code in /repo; all definitions are parsers and printers of test lines.
-/

open CSV
namespace CSV.Run
abbrev P (α : Type) := StateM (List String) α
def tok : P String := do
  match ← get with
  | [] => return ""
  | t :: r => set r; return t
def nat : P Nat := do return (← tok).toNat!
def hx : P Bytes32 := do return (Bytes32.fromStr (← tok).toList).getD (Bytes32.ofNat 0)
def many {α} (p : P α) : P (List α) := do
  let n ← nat
  let mut r := #[]
  for _ in [0:n] do r := r.push (← p)
  return r.toList
def node : P TreeNode := do
  let t ← tok
  if t = "C" then let d ← nat; let h ← hx; return .concealed (Fin.ofNat 32 d) h
  else let p ← hx; let m ← hx; return .leaf p m
def opt : P (Option UInt64) := do
  let t ← tok
  return if t = "-" then none else some (UInt64.ofNat t.toNat!)
def block : P MerkleBlock := do
  let d ← nat; let c ← nat; let e ← opt; let cs ← many node
  return ⟨.sha256t, Fin.ofNat 32 d, UInt16.ofNat c, cs, e⟩
def proof : P MerkleProof := do
  let pos ← nat; let c ← nat; let path ← many hx
  return ⟨.sha256t, UInt32.ofNat pos, UInt16.ofNat c, path⟩
def pair : P (Bytes32 × Bytes32) := do return (← hx, ← hx)
def slot : P (UInt32 × (Bytes32 × Bytes32)) := do
  let k ← nat
  return (UInt32.ofNat k, ← pair)
def msgMap (l : List (Bytes32 × Bytes32)) : MessageMap := (OrdMap.tryFrom MEDIUM_MAX (bmapOfList l)).getD ⟨[], List.Pairwise.nil, Nat.zero_le _⟩
def tree : P MerkleTree := do
  let d ← nat; let e ← nat; let c ← nat; let ms ← many pair; let sl ← many slot
  return ⟨.sha256t, Fin.ofNat 32 d, UInt64.ofNat e, UInt16.ofNat c, msgMap ms, (OrdMap.tryFrom MEDIUM_MAX (bmapOfList sl)).getD ⟨[], List.Pairwise.nil, Nat.zero_le _⟩⟩
def s32 (b : Bytes32) : String := String.ofList b.display
def sNode : TreeNode → String
  | .concealed d h => s!"C {d.val} {s32 h}"
  | .leaf p m => s!"L {s32 p} {s32 m}"
def sMany {α} (f : α → String) (l : List α) : String := String.intercalate " " (toString l.length :: l.map f)
def sOpt : Option UInt64 → String | none => "-" | some e => toString e.toNat
def sBlock (b : MerkleBlock) : String := s!"{b.depth.val} {b.cofactor.toNat} {sOpt b.entropy} {sMany sNode b.crossSection}"
def sProof (p : MerkleProof) : String := s!"{p.pos.toNat} {p.cofactor.toNat} {sMany s32 p.path}"
def sTree (t : MerkleTree) : String := s!"{t.depth.val} {t.entropy.toNat} {t.cofactor.toNat} {sMany (fun (a, b) => s!"{s32 a} {s32 b}") t.messages.entries} {sMany (fun ((k : UInt32), (a, b)) => s!"{k.toNat} {s32 a} {s32 b}") t.map.entries}"
def sPanic : Panic → String
  | .overflow => "overflow" | .divByZero => "divByZero" | .index => "index" | .assert => "assert" | .debugAssert => "debugAssert" | .expect => "expect" | .unreachable => "unreachable" | .explicit => "explicit" | .fuel => "fuel"
def ex {α} (r : Exec α) (f : α → String) : String := match r with | .ok a => f a | .error e => s!"panic {sPanic e}"
def sIP (e : InvalidProof) : String := s!"invalidProof {s32 e.protocolId} {e.expected.toNat} {e.actual.toNat} {e.width}"
def sHex (b : Bytes) : String := String.ofList (b.flatMap hexByte)
def bytes : P Bytes := do
  let t ← tok
  return if t = "-" then [] else (parseHex t.toList).getD []
def op (line : String) : String :=
  let go : P String := do
    let o ← tok
    let dbg := (← tok) = "d"
    let _ : Env := realEnv dbg
    match o with
    | "conceal" =>
      let b ← block; let ps ← many hx
      return ex (b.concealExcept ps) fun ((b1 : MerkleBlock), r) => (match r with | .ok n => s!"ok {n} {sBlock b1}" | .error e => s!"err leafNotKnown {s32 e.protocolId} {sBlock b1}")
    | "id" =>
      let b ← block; return ex b.commitId s32
    | "merge" =>
      let b ← block; let o ← block
      return ex (b.mergeReveal o) fun ((b1 : MerkleBlock), r) => (match r with | .ok n => s!"ok {n.toNat} {sBlock b1}" | .error (.unrelatedBlocks x y) => s!"err unrelated {s32 x} {s32 y} {sBlock b1}" | .error (.invalidProof e) => s!"err {sIP e} {sBlock b1}")
    | "mergepath" =>
      let b ← block; let pr ← proof; let p ← hx; let m ← hx
      return ex (b.mergeRevealPath pr p m) fun ((b1 : MerkleBlock), r) => (match r with | .ok n => s!"ok {n.toNat} {sBlock b1}" | .error (.unrelatedBlocks x y) => s!"err unrelated {s32 x} {s32 y} {sBlock b1}" | .error (.invalidProof e) => s!"err {sIP e} {sBlock b1}")
    | "proof" =>
      let b ← block; let p ← hx
      return ex (b.toMerkleProof p) fun r => (match r with | .ok pr => s!"ok {sProof pr}" | .error e => s!"err leafNotKnown {s32 e.protocolId}")
    | "proofs" =>
      let b ← block; return ex b.intoKnownProofs (sMany fun (p, pr) => s!"{s32 p} {sProof pr}")
    | "convolve" =>
      let pr ← proof; let p ← hx; let m ← hx
      return ex (pr.convolve p m) fun r => (match r with | .ok c => s!"ok {s32 c}" | .error e => s!"err {sIP e}")
    | "fw" =>
      let b ← block; return ex b.factoredWidth toString
    | "commit" =>
      let d ← nat; let e ← nat; let ms ← many pair
      return ex (MerkleTree.tryCommit none ⟨.sha256t, Fin.ofNat 32 d, msgMap ms, some (UInt64.ofNat e)⟩) fun r => (match r with
        | .ok t => s!"ok {sTree t}" | .error .empty => "err empty" | .error (.tooManyMessages _) => "err tooMany" | .error (.cantFitInMaxSlots n) => s!"err cantFit {n}")
    | "root" =>
      let t ← tree; return ex t.root s32
    | "treeid" =>
      let t ← tree; return ex t.commitId s32
    | "treeblock" =>
      let t ← tree; return ex (MerkleBlock.fromTree t) sBlock
    | "merklize" =>
      let l ← many hx; return ex (merklizeHashes l) s32
    | "buoy" =>
      let top ← nat; let l ← many nat
      let r : Exec (Buoy × List String) := l.foldlM (fun (st : Buoy × List String) d => do
        let (b, x) ← st.1.push (Fin.ofNat 32 d)
        .ok (b, st.2 ++ [s!"{if x then 1 else 0}:{b.level.val}"])) (Buoy.new (Fin.ofNat 32 top), [])
      return ex r fun x => String.intercalate " " ("ok" :: x.2)
    | "encblock" =>
      let b ← block; return sHex b.enc
    | "encproof" =>
      let b ← proof; return sHex b.enc
    | "enctree" =>
      let b ← tree; return sHex b.enc
    | "decblock" =>
      let b ← bytes; return (match deserialize decMerkleBlock b with | some x => s!"ok {sBlock x}" | none => "none")
    | "decproof" =>
      let b ← bytes; return (match deserialize decMerkleProof b with | some x => s!"ok {sProof x}" | none => "none")
    | "dectree" =>
      let b ← bytes; return (match deserialize decMerkleTree b with | some x => s!"ok {sTree x}" | none => "none")
    | _ => return "?"
  (go.run (line.splitOn " ")).1
end CSV.Run

/-- `lean --run Verif/Run.lean <file>`: answers every line of the file with one line. -/
def main (args : List String) : IO Unit := do
  for l in ← IO.FS.lines (args.headD "") do
    IO.println (CSV.Run.op l)
