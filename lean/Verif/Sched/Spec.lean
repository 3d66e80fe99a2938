import Verif.Sched.Model
/- What a client of the scheduler sees: the tokens sampled for a request, the messages about it, when an answer is complete. -/
namespace Verif.Sched

/-- The tokens the model has produced for a request. -/
def genOf (s : St) (rid : Nat) : List Int := (s.gen.filter (·.1 = rid)).map (·.2)

/-- The messages about a request, oldest first. -/
def msgsOf (s : St) (rid : Nat) : List Msg := s.sent.filter (·.rid = rid)

/-- The tokens a client has received: the new tokens of all messages, one after the other. -/
def said (ms : List Msg) : List Int := ms.flatMap Msg.decodeIds

/-- The token limit of a request. -/
def Raw.limit (c : Cfg) (r : Raw) : Int := r.maxNew.getD c.defNew

/-- `t` ends the answer to `r`. -/
def Raw.stops (c : Cfg) (r : Raw) (t : Int) : Prop := t ∈ r.stop ∨ t ∈ c.eos

/-- `out` is a complete answer to `r`: it ends with the first stop token, or, without any, at the token limit (but it has at
least one token). -/
def Complete (c : Cfg) (r : Raw) (out : List Int) : Option Reason → Prop
  | some .eos => ∃ ini t, out = ini ++ [t] ∧ r.stops c t ∧ (∀ u ∈ ini, ¬ r.stops c u) ∧ (ini = [] ∨ (ini.length : Int) < r.limit c)
  | some .length => (∀ u ∈ out, ¬ r.stops c u) ∧ (out.length : Int) = max 1 (r.limit c)
  | _ => False

/-- The scheduler still works on a request. -/
def Open (s : St) (rid : Nat) : Prop := rid ∈ s.waiting.map Raw.rid ∨ rid ∈ s.pending.map Req.rid ∨ rid ∈ s.running.map Req.rid

/-- The last message is the only final one, and with it the client has all tokens of a complete answer. -/
def Answered (c : Cfg) (r : Raw) (gen : List Int) (ms : List Msg) : Prop :=
  ∃ ini m, ms = ini ++ [m] ∧ (∀ q ∈ ini, q.reason = none) ∧ Complete c r gen m.reason ∧ m.outputIds = gen ∧ said ms = gen

/-- A request that fits into an empty server. -/
def Fits (c : Cfg) (inp : Nat) : Prop := inp ≤ c.maxPrefill ∧ inp ≤ c.maxTotal

instance (c : Cfg) (inp : Nat) : Decidable (Fits c inp) := by unfold Fits; infer_instance

/-- The number of tokens a request may still produce. -/
def Req.left (r : Req) : Nat := (max 1 r.maxNew - r.out.length).toNat

/-- The number of tokens all requests may still produce, without those that do not fit. -/
def work (c : Cfg) (s : St) : Nat :=
  (((s.pending ++ s.waiting.map (Raw.toReq c)).filter (fun r => Fits c r.inp)).map Req.left).sum + (s.running.map Req.left).sum

/-- Iterations of the event loop while nothing arrives. -/
def St.iters (c : Cfg) (s : St) (os : List Oracle) : St := os.foldl (St.iter c) s

end Verif.Sched
