import Verif.Spec.Commit
import Verif.Spec.Block
import Verif.Model.Sha256

/-!
# A concrete case

Three protocols, of which two collide at the first attempt, so that the cofactor becomes 1. Used to
show that the hypotheses of theorems can be met.
-/

namespace CSV.Sample

/-- The protocols. -/
def p1 : ProtocolId := Bytes32.ofNat 1
@[inherit_doc p1] def p5 : ProtocolId := Bytes32.ofNat 5
@[inherit_doc p1] def p6 : ProtocolId := Bytes32.ofNat 6
/-- A protocol without message. -/
def p9 : ProtocolId := Bytes32.ofNat 9
/-- The messages. -/
def m1 : Message := Bytes32.fill 0xA1
@[inherit_doc m1] def m5 : Message := Bytes32.fill 0xA5
@[inherit_doc m1] def m6 : Message := Bytes32.fill 0xA6

/-- The message map. -/
def messages : MessageMap := ⟨[(p1, m1), (p5, m5), (p6, m6)], by decide, by decide⟩

/-- The source. -/
def source : MultiSource := ⟨.sha256t, 2, messages, some 77⟩

/-- The tree: modulo 4 the protocols 1 and 5 share a slot, modulo 3 they do not. -/
def tree : MerkleTree :=
  ⟨.sha256t, 2, 77, 1, messages, ⟨[(0, (p6, m6)), (1, (p1, m1)), (2, (p5, m5))], by decide, by decide⟩⟩

theorem commits : MerkleTree.tryCommit none source = .ok (.ok tree) := by rfl

/-- The block with all messages revealed. -/
def block [Env] : MerkleBlock :=
  ⟨.sha256t, 2, 1, [.leaf p6 m6, .leaf p1 m1, .leaf p5 m5,
    .concealed 2 (leafHash (.entropy 77 3))], some 77⟩

/-- The block with only the message of protocol 1 revealed. -/
def block1 [Env] : MerkleBlock :=
  ⟨.sha256t, 2, 1, [.concealed 2 (leafHash (.inhabited p6 m6)), .leaf p1 m1,
    .concealed 1 (branchHash 1 4 (leafHash (.inhabited p5 m5)) (leafHash (.entropy 77 3)))], none⟩

end CSV.Sample
