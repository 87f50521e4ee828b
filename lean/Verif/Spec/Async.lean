import Verif.Spec.Network

/-!
# Specification: parties who exchange blocks and proofs over an unreliable network

Packets are made at one time and delivered later, in any order, any number of times or never.
-/

namespace CSV

/-- What is sent. -/
inductive Content where
  /-- a block -/
  | block (b : MerkleBlock)
  /-- a message with its proof -/
  | proof (pr : MerkleProof) (p : ProtocolId) (m : Message)
  /-- the sender did not have what was to be sent -/
  | nothing

/-- Parties with their blocks, and the packets sent so far with their addressees. -/
structure Mail where
  /-- blocks of the parties -/
  parties : Net
  /-- packets, the first one first -/
  sent : List (Nat × Content)

/-- What may happen. -/
inductive Action where
  /-- party `i` sends its block to party `j` -/
  | send (i j : Nat)
  /-- party `i` sends to `j` a copy with all protocols but `ps` concealed, if it knows them -/
  | sendExcept (i j : Nat) (ps : List ProtocolId)
  /-- party `i` sends to `j` a message with its proof, if it knows the message -/
  | sendProof (i j : Nat) (p : ProtocolId)
  /-- the packet number `n` arrives at its addressee, who merges it -/
  | deliver (n : Nat)
  /-- party `i` conceals something or merges something received from elsewhere -/
  | act (i : Nat) (op : BlockOp)

/-- The receiver merges a packet. Errors returned by a merge are ignored. -/
def Content.merge [Env] (b : MerkleBlock) : Content → Exec MerkleBlock
  | .block o => do let (b', _) ← b.mergeReveal o; .ok b'
  | .proof pr p m => do let (b', _) ← b.mergeRevealPath pr p m; .ok b'
  | .nothing => .ok b

/-- Runs an action with the functions of the library. -/
def Action.step [Env] (s : Mail) : Action → Exec Mail
  | .send i j => .ok { s with sent := s.sent ++ [(j, .block (s.parties i))] }
  | .sendExcept i j ps => do
    let (copy, r) ← (s.parties i).concealExcept ps
    match r with
    | .error _ => .ok { s with sent := s.sent ++ [(j, .nothing)] }
    | .ok _ => .ok { s with sent := s.sent ++ [(j, .block copy)] }
  | .sendProof i j p =>
    match (s.parties i).knownMessages.find? (fun e => decide (e.1 = p)) with
    | none => .ok { s with sent := s.sent ++ [(j, .nothing)] }
    | some (_, m) => do
      let r ← (s.parties i).toMerkleProof p
      match r with
      | .error _ => .ok { s with sent := s.sent ++ [(j, .nothing)] }
      | .ok pr => .ok { s with sent := s.sent ++ [(j, .proof pr p m)] }
  | .deliver n =>
    match s.sent[n]? with
    | none => .ok s
    | some (j, c) => do
      let b ← c.merge (s.parties j)
      .ok { s with parties := s.parties.set j b }
  | .act i op => do
    let b ← op.step (s.parties i)
    .ok { s with parties := s.parties.set i b }

/-- Runs actions one after the other. -/
def Mail.run [Env] (s : Mail) : List Action → Exec Mail
  | [] => .ok s
  | a :: as => do let s' ← a.step s; s'.run as

/-- What the parties know, and what the packets tell to whom. -/
structure MailK where
  /-- known to the parties -/
  parties : Knowledge
  /-- told by the packets -/
  sent : List (Nat × (ProtocolId × Message → Prop))

/-- The intended effect of an action for a tree with commitment `c`: a packet tells what its sender knew when it was
made and included, and its addressee knows that from its arrival on. -/
def Action.learn [Env] (c : Commitment) (K : MailK) : Action → MailK
  | .send i j => { K with sent := K.sent ++ [(j, K.parties i)] }
  | .sendExcept i j ps => { K with
      sent := K.sent ++ [(j, fun e => K.parties i e ∧ e.1 ∈ ps ∧ ∀ p ∈ ps, ∃ m, K.parties i (p, m))] }
  | .sendProof i j p => { K with sent := K.sent ++ [(j, fun e => K.parties i e ∧ e.1 = p)] }
  | .deliver n =>
    match K.sent[n]? with
    | none => K
    | some (j, k) => { K with parties := fun x e => K.parties x e ∨ (x = j ∧ k e) }
  | .act i op => { K with parties := fun x e => if x = i then op.effect c (K.parties i) e else K.parties x e }

/-- The intended effect of actions. -/
def MailK.after [Env] (c : Commitment) (K : MailK) : List Action → MailK
  | [] => K
  | a :: as => (a.learn c K).after c as

/-- The action addresses the message `e` to a party outside of the group `S`, from inside or from elsewhere. -/
def Action.Leaks (S : Nat → Prop) (e : ProtocolId × Message) : Action → Prop
  | .send i j => S i ∧ ¬ S j
  | .sendExcept i j ps => S i ∧ ¬ S j ∧ e.1 ∈ ps
  | .sendProof i j p => S i ∧ ¬ S j ∧ e.1 = p
  | .deliver _ => False
  | .act i (.mergeReveal o) => ¬ S i ∧ e ∈ o.knownMessages
  | .act i (.mergeRevealPath _ p m) => ¬ S i ∧ e = (p, m)
  | .act _ (.concealExcept _) => False
  | .act _ (.concealOther _) => False

/-- Sending and receiving of whole blocks. -/
inductive Post where
  /-- party `i` sends its block to party `j` -/
  | send (i j : Nat)
  /-- packet number `n` arrives -/
  | deliver (n : Nat)

/-- As actions. -/
def Post.action : Post → Action
  | .send i j => .send i j
  | .deliver n => .deliver n

/-- Which initial blocks have reached a party (first component) or are contained in a packet (second component). -/
structure Pasts where
  /-- of the parties -/
  parties : Nat → Nat → Prop
  /-- of the packets, with addressees -/
  sent : List (Nat × (Nat → Prop))

/-- The effect of sending and receiving. -/
def Pasts.after (R : Pasts) : List Post → Pasts
  | [] => R
  | .send i j :: as => Pasts.after { R with sent := R.sent ++ [(j, R.parties i)] } as
  | .deliver n :: as =>
    match R.sent[n]? with
    | none => R.after as
    | some (j, q) => Pasts.after { R with parties := fun k a => R.parties k a ∨ (k = j ∧ q a) } as

/-- In the beginning everybody has their own block, and nothing is under way. -/
def Pasts.start : Pasts := ⟨fun a b => a = b, []⟩

/-- An event of the network without delays, as sending and immediate delivery of packet number `n`. -/
def Event.actions (n : Nat) : Event → List Action
  | .share i j => [.send i j, .deliver n]
  | .disclose i j ps => [.sendExcept i j ps, .deliver n]
  | .prove i j p => [.sendProof i j p, .deliver n]
  | .act i op => [.act i op]

/-- Likewise events, when `n` packets have been sent before. -/
def actionsOf (n : Nat) : List Event → List Action
  | [] => []
  | .act i op :: es => .act i op :: actionsOf n es
  | e :: es => e.actions n ++ actionsOf (n + 1) es

end CSV
