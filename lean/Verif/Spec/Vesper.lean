import Verif.Model.Vesper

/-! # What a description of a layout should say -/

namespace CSV

/-- The entry of a description for a step: what is committed to, in which way, within which bounds, made
of what. -/
inductive CommitStep.DescribedBy : CommitStep → VesperCommit → Prop
  | serialized (t : TypeFqn) : DescribedBy (.serialized t) (.mk t.name .serialized [] [])
  | hashed (t : TypeFqn) : DescribedBy (.hashed t) (.mk t.name .hashed [] [])
  | merklized (t : TypeFqn) : DescribedBy (.merklized t) (.mk t.name .merklized [] [])
  | concealed (t : TypeFqn) : DescribedBy (.concealed t) (.mk t.name .concealed [.concealed t] [])
  | list (s : Sizing) (t : TypeFqn) :
      DescribedBy (.collection .list s t) (.mk t.name .list [.lenRange s] [.mk t.name .element [] []])
  | set (s : Sizing) (t : TypeFqn) :
      DescribedBy (.collection .set s t) (.mk t.name .set [.lenRange s] [.mk t.name .element [] []])
  | map (k : TypeFqn) (s : Sizing) (t : TypeFqn) :
      DescribedBy (.collection (.map k) s t) (.mk t.name .map [.lenRange s]
        [.mk k.name .mapKey [] [], .mk t.name .mapValue [] []])

/-- The same kind of step. -/
inductive CommitStep.SameKind : CommitStep → CommitStep → Prop
  | serialized (t u : TypeFqn) : SameKind (.serialized t) (.serialized u)
  | hashed (t u : TypeFqn) : SameKind (.hashed t) (.hashed u)
  | merklized (t u : TypeFqn) : SameKind (.merklized t) (.merklized u)
  | concealed (t u : TypeFqn) : SameKind (.concealed t) (.concealed u)
  | list (s r : Sizing) (t u : TypeFqn) : SameKind (.collection .list s t) (.collection .list r u)
  | set (s r : Sizing) (t u : TypeFqn) : SameKind (.collection .set s t) (.collection .set r u)
  | map (k l : TypeFqn) (s r : Sizing) (t u : TypeFqn) :
      SameKind (.collection (.map k) s t) (.collection (.map l) r u)

/-- A type without its library. -/
def TypeFqn.anon (t : TypeFqn) : TypeFqn := ⟨"", t.name⟩

/-- A step without libraries. -/
def CommitStep.anon : CommitStep → CommitStep
  | .serialized t => .serialized t.anon
  | .hashed t => .hashed t.anon
  | .merklized t => .merklized t.anon
  | .concealed t => .concealed t.anon
  | .collection .list s t => .collection .list s t.anon
  | .collection .set s t => .collection .set s t.anon
  | .collection (.map k) s t => .collection (.map k.anon) s t.anon

/-- A layout without libraries. -/
def CommitLayout.anon (l : CommitLayout) : CommitLayout := ⟨l.idty.anon, l.tag, l.fields.map CommitStep.anon⟩

end CSV
