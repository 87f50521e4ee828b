import Verif.Model.Codec
import Verif.Model.Seals

/-!
# Serialized seal witnesses

`SealWitness` derives its strict encoding: the published witness, then the client-side witness. How these
two are encoded is up to the user of the library. The skipped phantom field is not serialized.
-/

namespace CSV

variable {Pub Cli : Type}

/-- `StrictEncode for SealWitness`, `/repo/single_use_seals/src/lib.rs:220-240`. -/
def SealWitness.enc (ep : Pub → Bytes) (ec : Cli → Bytes) (w : SealWitness Pub Cli) : Bytes :=
  ep w.published ++ ec w.client

/-- `StrictDecode for SealWitness`, `/repo/single_use_seals/src/lib.rs:220-240`. -/
def decSealWitness (dp : Decoder Pub) (dc : Decoder Cli) : Decoder (SealWitness Pub Cli) :=
  dp.bind fun published => dc.bind fun client => .pure ⟨published, client⟩

end CSV
