import Verif.Keys.Model
/-!
# What the keys in force should be

An exchange `e` of the history says: replica `e.rep` announced `e.key`, generated at `e.sn`.  It is in force for the sequence numbers from two
checkpoints after the one of `e.sn` on.
-/
namespace Verif.Keys

/-- exchange `e` is in force at sequence number `q` (checkpoints are every 150 sequence numbers) -/
def InForce (e : Ex) (q : Nat) : Prop := e.sn / 150 + 2 ≤ (q - 1) / 150

instance (e : Ex) (q : Nat) : Decidable (InForce e q) := inferInstanceAs (Decidable (_ ≤ _))

/-- the key of replica `r` at sequence number `q`: that of the last exchange of `r`, in the order of execution, that is in force at `q`; the
configured key if there is none -/
def keyAt (init : Nat → Key) (h : List Ex) (r q : Nat) : Key :=
  match (h.filter (fun e => decide (e.rep = r ∧ InForce e q))).getLast? with
  | some e => e.key
  | none => init r

/-- the exchanges are executed in the order of the sequence numbers at which their keys were generated -/
def InOrder (h : List Ex) : Prop := h.Pairwise (fun a b => a.sn ≤ b.sn)

/-- `Run c s h`: the replica with configuration `c` reaches state `s` after executing the exchanges `h` (with the number of the batch in which
each was executed), itself or by state transfer.  Messages are those a client can send: the sequence number has eight bytes. -/
inductive Run : Cfg → St → List (Nat × Ex) → Prop where
  | start (c : Cfg) : Run c (boot c) []
  /-- it generates a key -/
  | gen {c : Cfg} {s : St} {h : List (Nat × Ex)} (sn : Nat) (fresh : Pair) : Run c s h → Run c (generate c s sn fresh).1 h
  /-- it executes a key exchange that is taken over -/
  | exec {c : Cfg} {s s' : St} {h : List (Nat × Ex)} (client : Nat) (m : Msg) (req : Nat) : Run c s h → m.sn < 2 ^ 64 →
      accepts c s m req = true → executeKeyExchange c s client m req = .ok s' → Run c s' (h ++ [(req, ⟨m.rep, m.sn, m.key⟩)])
  /-- it executes a key exchange that is not taken over -/
  | ignore {c : Cfg} {s s' : St} {h : List (Nat × Ex)} (client : Nat) (m : Msg) (req : Nat) : Run c s h →
      accepts c s m req = false → executeKeyExchange c s client m req = .ok s' → Run c s' h
  /-- it crashes, or is stopped, and starts again -/
  | restart {c : Cfg} {s s' : St} {h : List (Nat × Ex)} : Run c s h → restart c s = .ok s' → Run c s' h
  /-- it gets the pages of a replica that is further, by state transfer -/
  | transfer {c c' : Cfg} {s s' s2 : St} {h h2 : List (Nat × Ex)} : Run c s h → Run c' s2 h2 → h <+: h2 →
      c'.n = c.n → c'.pageSize = c.pageSize → transferred c s s2.pages = .ok s' → Run c s' h2

/-- the same without restarts and state transfers -/
inductive LiveRun : Cfg → St → List (Nat × Ex) → Prop where
  | start (c : Cfg) : LiveRun c (boot c) []
  | gen {c : Cfg} {s : St} {h : List (Nat × Ex)} (sn : Nat) (fresh : Pair) : LiveRun c s h → LiveRun c (generate c s sn fresh).1 h
  | exec {c : Cfg} {s s' : St} {h : List (Nat × Ex)} (client : Nat) (m : Msg) (req : Nat) : LiveRun c s h → m.sn < 2 ^ 64 →
      accepts c s m req = true → executeKeyExchange c s client m req = .ok s' → LiveRun c s' (h ++ [(req, ⟨m.rep, m.sn, m.key⟩)])
  | ignore {c : Cfg} {s s' : St} {h : List (Nat × Ex)} (client : Nat) (m : Msg) (req : Nat) : LiveRun c s h →
      accepts c s m req = false → executeKeyExchange c s client m req = .ok s' → LiveRun c s' h

end Verif.Keys
