import Verif.Cases.Base
import Verif.Props.AnyBuoy
import Verif.Props.Codec
import Verif.Props.Cost
import Verif.Props.Engine
import Verif.Props.Merge
import Verif.Props.Merkle
import Verif.Props.Oracle
import Verif.Props.Refine
import Verif.Props.SmallDepth
import Verif.Props.Typical
import Verif.Props.Work
import Verif.Props.Digest
import Verif.Props.Stash

/-!
# Cases for the theorems: engines, encodings, buoys, bounds
-/

namespace CSV

open Sample

/-! ## Buoys -/

example := C28_surfaces (.fork (.fork .tip .tip) .tip) 0 2 [2, 1] rfl (by decide)

/-! ## Engines and hashers -/

example [Env] := C40_256 "urn:test" (List.replicate 256 (.serialized (inferInstance : StrictEncode Leaf) (.entropy 7 0)))
  (by rw [List.length_replicate]; decide)
example := C37_unambiguous 0xFF (by decide) [] [1, 2] [1] [3] [2, 3] (by decide) (by decide)
example := C37_truncated 0xFF [] (List.replicate 300 7) (2 ^ 8) (by decide) (by rw [List.length_replicate]; decide)
example := C37_class24 0xFFFFFF (by decide) (by decide) [] [1, 2, 3] (by decide)
example [Env] := C41_layouts [.inhabited p1 m1, .entropy 7 0] (by decide) "urn:test"
example [Env] := C32_root [Bytes32.fill 1, Bytes32.fill 2, Bytes32.fill 3] (by decide) (by decide)

/-! ## Encodings -/

example := (C53_array (val := 0) (len := 4) [0, 0, 0, 0] rfl).1 rfl
example := (C53_array (val := 0) (len := 4) [0, 0, 1, 0] rfl).2 (by decide)

/-! ## Bounds -/

example := C93_depth none source 2 11 3 rfl (.inl (by decide)) (by decide) (by decide) (by decide) (by decide +kernel)
example := C87_depth none source 3 rfl (.inl (by decide)) (by decide) (by decide) (by decide +kernel)
example := C87_most 10 20 (by decide)
example := C89_numbers (fun t => (t.map fun e => e.1).flatten) 3 (by decide)

/-! ## Stores of blocks -/

example [Env] := C110_refused Stash.empty proof1 p5 m5 short1 misplaced

end CSV
