import Verif.Mamba.Reach

/-! # C133: the prefix cache for hybrid models serves, locks and evicts prefixes like the plain one -/
namespace Verif.Mamba
open Verif.PyRadix hiding St Step Reach Op Supplied

/-- The history contains an insertion in namespace `e` whose first `n + 1` tokens are those of `key` and which supplied
the slot `x` for the token at position `n`. -/
def Supplied (ops : List Op) (e : Ext) (key : Key) (n : Nat) (x : Nat) : Prop :=
  ∃ key' val mval, Op.insert e key' val mval ∈ ops ∧ key'.take (n + 1) = key.take (n + 1) ∧ val[n]? = some x

/-- C133: `match_prefix` returns the slots of the longest whole-page prefix of the key that is cached in its namespace, changes
nothing that is cached, and the returned node is the end of that prefix. -/
theorem C133_match {P : Nat} (hP : 0 < P) {ops : List Op} {s : St} (h : Reach P ops s) (e : Ext) (key : Key) {sl : Slots}
    {last br : Option Nat} {c' : MC} (hm : s.c.matchPrefix P e key = ((sl, last, br), c')) :
    sl.length ≤ key.length ∧ P ∣ sl.length ∧ Cached P s.c.cache.tree e (key.take sl.length) sl ∧
    (∀ n s2, n ≤ key.length → Cached P s.c.cache.tree e (key.take n) s2 → n ≤ sl.length) ∧
    (∀ e' k' s', Cached P c'.cache.tree e' k' s' ↔ Cached P s.c.cache.tree e' k' s') ∧
    (∀ y, last = some y → PathTo y c'.cache.tree e (key.take sl.length) sl) ∧ (last = none → sl = []) :=
  C36_match hP (reach_sim hP h) 0 e key (c' := c'.cache) (by
    have := match_eq P s.c e key
    rw [hm] at this
    exact this)

/-- C133: `insert` of a key of whole pages reports the length of the longest prefix that was cached; afterwards cached is what was
cached before and the whole-page prefixes of the key, with the old slots for the reported prefix and the caller's slots for the
rest; the returned node is the end of the key. -/
theorem C133_insert {P : Nat} (hP : 0 < P) {ops : List Op} {s : St} (h : Reach P ops s) (e : Ext) (key : Key) (val : Slots) (mval : Option Slots)
    (hne : key ≠ []) (hl : val.length = key.length) (hd : P ∣ key.length) {n : Nat} {last : Option Nat} {ex : Bool} {c' : MC}
    (hi : s.c.insert P e key val mval = ((n, last, ex), c')) :
    n ≤ key.length ∧ (∀ m s2, m ≤ key.length → Cached P s.c.cache.tree e (key.take m) s2 → m ≤ n) ∧
    ∃ old, Cached P s.c.cache.tree e (key.take n) old ∧ old.length = n ∧
      (∀ e' k' s', Cached P c'.cache.tree e' k' s' ↔ Cached P s.c.cache.tree e' k' s' ∨
        (e' = e ∧ ∃ m, m ≤ key.length ∧ P ∣ m ∧ k' = key.take m ∧ s' = (old ++ val.drop n).take m)) ∧
      (∃ y, last = some y ∧ PathTo y c'.cache.tree e key (old ++ val.drop n)) ∧
      (slots c'.cache.tree).Perm (slots s.c.cache.tree ++ val.drop n) :=
  C36_insert hP (reach_sim hP h) 0 e key val hne hl hd (c' := c'.cache) (by
    have := insert_eq P s.c e key val mval
    rw [hi] at this
    exact this)

/-- C133: every slot returned by `match_prefix` was supplied by an insertion, in the same namespace, of a sequence that agrees up to
and including this position: no request is served the KV of other tokens. -/
theorem C133_origin {P : Nat} (hP : 0 < P) {ops : List Op} {s : St} (h : Reach P ops s) (e : Ext) (key : Key) (n x : Nat)
    (hx : (s.c.matchPrefix P e key).1.1[n]? = some x) : Supplied ops e key n x := by
  obtain ⟨now, key', val, hm, h1, h2⟩ := C36_match_origin hP (reach_sim hP h) 0 e key (match_eq P s.c e key) n x hx
  obtain ⟨op, hop, he⟩ := List.mem_map.1 hm
  cases op <;> simp only [Op.erase, reduceCtorEq] at he
  rename_i e2 k2 v2 m2
  injection he with a b c d
  subst b c d
  exact ⟨_, _, m2, hop, h1, h2⟩

/-- C133: the prefix ending at a locked node stays cached with its slots, whatever is called. -/
theorem C133_locked {P : Nat} (hP : 0 < P) {ops : List Op} {s s' : St} {op : Op} (h : Reach P ops s) (hs : Step P s op s') {x : Nat}
    (hx : x ∈ s.held) {e : Ext} {key : Key} {sl : Slots} (hp : PathTo x s.c.cache.tree e key sl) :
    PathTo x s'.c.cache.tree e key sl ∧ Cached P s'.c.cache.tree e key sl :=
  C37_locked_survive hP (reach_sim hP h) (step_sim (mInv_reach hP h) hs) hx hp

/-- C133: `evict` frees the slots of what it removes, each once, and keeps the rest; it frees at least what was asked for, or
everything that is not locked; nothing of a locked prefix is freed (the slots in the cache being distinct). -/
theorem C133_evict {P : Nat} (hP : 0 < P) {ops : List Op} {s : St} (h : Reach P ops s) {target mtarget : Nat} {r : EvM}
    (he : s.c.Evict target mtarget r) :
    (slots s.c.cache.tree).Perm (r.freed ++ slots r.c.cache.tree) ∧
    (∀ e key sl, Cached P r.c.cache.tree e key sl → Cached P s.c.cache.tree e key sl) ∧
    (target ≤ r.freed.length ∨ unlockedSize r.c.cache.tree = 0) ∧
    ((slots s.c.cache.tree).Nodup → ∀ x ∈ s.held, ∀ e key sl, PathTo x s.c.cache.tree e key sl → ∀ y ∈ sl, y ∉ r.freed) := by
  have hs := evict_sim (mInv_reach hP h) he
  obtain ⟨a, b, c⟩ := C37_evict hP (reach_sim hP h) hs
  exact ⟨a, b, c, fun hn x hx e key sl hp => C37_evict_locked hP (reach_sim hP h) hs hn hx hp⟩

/-- What `evict` reports as `full_evicted` is the number of slots it returned to the pool. -/
theorem phase1_count {target : Nat} {s s' : EvM} (hp : Phase1 target s s') (h : s.full = s.freed.length) : s'.full = s'.freed.length := by
  induction hp with
  | enough | none => exact h
  | pop x _ _ _ ih =>
    refine ih ?_
    unfold evictLeaf
    split
    · exact h
    · simp only [List.length_append, h]

theorem C133_count {target mtarget : Nat} {s : MC} {r : EvM} (he : s.Evict target mtarget r) : r.full = r.freed.length := by
  obtain ⟨m, h1, h2⟩ := he
  obtain ⟨-, a, b, -, -⟩ := phase2_cache h2
  rw [a, b]
  exact phase1_count h1 rfl

/-- C133: a node is locked exactly while a lock below it is held, the protected size counts the locked tokens, and the evictable size
never exceeds what can be evicted. Missing: that the evictable size is what can be evicted, which fails (`C133_sizes_violated`). -/
theorem C133_sizes_partial {P : Nat} (hP : 0 < P) {ops : List Op} {s : St} (h : Reach P ops s) :
    LockOk s.held s.c.cache.tree ∧ s.c.cache.prot = lockedSize s.c.cache.tree ∧ s.c.cache.evictable ≤ unlockedSize s.c.cache.tree ∧
    s.c.cache.evictable + s.c.cache.prot ≤ totalSize s.c.cache.tree := by
  obtain ⟨a, b⟩ := C37_protected hP (reach_sim hP h)
  obtain ⟨c, d⟩ := C37_sizes_partial hP (reach_sim hP h)
  exact ⟨a, b, c, d⟩

/-! ### Witnesses -/

/-- A state after insertions, as in the examples below. -/
def ins (s : St) (key : Key) (val : Slots) (mval : Option Slots) : St := { s with c := (s.c.insert 1 none key val mval).2 }
def mat (s : St) (key : Key) : St := { s with c := (s.c.matchPrefix 1 none key).2 }
def lck (s : St) (x : Nat) : St := { c := s.c.lock x, held := x :: s.held }
def unl (s : St) (x : Nat) : St := { c := s.c.unlock x, held := s.held.erase x }
def st0 : St := ⟨.empty, []⟩

theorem reach_ins {ops s} (h : Reach 1 ops s) (key val mval) (hl : val.length = key.length) : Reach 1 (.insert none key val mval :: ops) (ins s key val mval) :=
  .step h (.insert none key val mval hl (Nat.one_dvd _))
theorem reach_mat {ops s} (h : Reach 1 ops s) (key) : Reach 1 (.matchPrefix none key :: ops) (mat s key) := .step h (.matchPrefix none key)
theorem reach_lck {ops s} (h : Reach 1 ops s) {x} (hx : x ∈ ids s.c.cache.tree) : Reach 1 (.lock x :: ops) (lck s x) := .step h (.lock x hx)
theorem reach_unl {ops s} (h : Reach 1 ops s) {x} (hx : x ∈ s.held) : Reach 1 (.unlock x :: ops) (unl s x) := .step h (.unlock x hx)

/-- C133, violated for sizes: after inserting `[1]` and then `[1, 2]`, the evictable size has lost a token (L538-544): with `[1, 2]`
locked and `[9]` cached it reports 0, though one token can be evicted. -/
theorem C133_sizes_violated : ∃ ops s, Reach 1 ops s ∧ s.c.cache.evictable = 0 ∧ unlockedSize s.c.cache.tree = 1 ∧ totalSize s.c.cache.tree = 3 ∧
    s.c.cache.prot = 2 :=
  ⟨_, _, reach_ins (reach_lck (reach_ins (reach_ins .init [1] [10] none rfl) [1, 2] [10, 11] none rfl) (x := 2) (by decide +kernel)) [9] [12] none rfl,
    by decide +kernel, by decide +kernel, by decide +kernel, by decide +kernel⟩

/-- Non-vacuity: a history with states, a split, a lock and a match. -/
example : ∃ ops s, Reach 1 ops s ∧ s.held = [1] ∧ (s.c.matchPrefix 1 none [1, 2, 3]).1.1 = [10, 11] ∧
    (s.c.insert 1 none [1, 4] [20, 21] none).1 = (1, some 3, true) ∧ PathTo 1 s.c.cache.tree none [1, 2] [10, 11] :=
  ⟨_, _, reach_mat (reach_lck (reach_ins .init [1, 2] [10, 11] (some [7]) rfl) (x := 1) (by decide +kernel)) [1],
    rfl, by decide +kernel, by decide +kernel, .inr ⟨rfl, .inr ⟨[2], [11], rfl, rfl, .inr ⟨rfl, .inl ⟨rfl, rfl, rfl⟩⟩⟩⟩⟩

/-! ### The server -/

/-- How a Python method takes its arguments: the number of positional parameters after `self`; all methods below also take `**kwargs`,
which takes no positional argument. -/
structure Sig where
  positional : Nat

/-- The three prefix caches the server may be configured with (`model_runner_process.py` L117-169). -/
inductive CacheKind where
  | radix
  | mamba
  | chunk

/-- `dec_lock_ref`: `radix_cache.py` L388-390, `mamba_radix_cache.py` L505, `chunk_cache.py` L72. -/
def decSig : CacheKind → Sig
  | .radix => ⟨2⟩
  | .mamba => ⟨1⟩
  | .chunk => ⟨1⟩

/-- A call with `n` positional arguments: `TypeError` if there are more than the method takes. -/
def callOk (s : Sig) (n : Nat) : Prop := n ≤ s.positional

/-- The server's unlock, `model_runner_process.py` L629, L894, L1094: `cache.dec_lock_ref(node, swa_id)`. -/
def serverUnlock (k : CacheKind) : Prop := callOk (decSig k) 2

/-- C133, violated in the server: with `enable_mamba_cache` the first unlock of a request's prefix raises `TypeError`, with the
plain cache it does not. -/
theorem C133_server_violated : serverUnlock .radix ∧ ¬ serverUnlock .mamba := ⟨by unfold serverUnlock callOk decSig; decide, by unfold serverUnlock callOk decSig; decide⟩

end Verif.Mamba
