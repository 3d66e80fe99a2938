import Verif.PyRadix.Model
/- What the tree stands for. -/
namespace Verif.PyRadix

/-- The token sequence `key` of namespace `e` is cached with the slots `s`: some path from the root spells it, possibly
ending inside a node at a page boundary. -/
def Cached (P : Nat) : Forest → Ext → Key → Slots → Prop
  | .nil, _, key, s => key = [] ∧ s = []
  | .node _ k x v _ _ kids rest, e, key, s =>
    Cached P rest e key s ∨
    (x = e ∧ ((∃ n, n ≤ k.length ∧ P ∣ n ∧ key = k.take n ∧ s = v.take n) ∨
      ∃ key' s', key = k ++ key' ∧ s = v ++ s' ∧ Cached P kids e key' s'))

/-- The path from the root to the node `y` spells `key` and holds the slots `s`. -/
def PathTo (y : Nat) : Forest → Ext → Key → Slots → Prop
  | .nil, _, _, _ => False
  | .node i k x v _ _ kids rest, e, key, s =>
    PathTo y rest e key s ∨
    (x = e ∧ ((y = i ∧ key = k ∧ s = v) ∨ ∃ key' s', key = k ++ key' ∧ s = v ++ s' ∧ PathTo y kids e key' s'))

/-- No sibling of the list is in namespace `e` with the first page `pg`. -/
def NoHead (P : Nat) (e : Ext) (pg : Key) : Forest → Prop
  | .nil => True
  | .node _ k x _ _ _ _ rest => ¬ (x = e ∧ k.take P = pg) ∧ NoHead P e pg rest

/-- Edges are non-empty whole pages with one slot per token, and siblings differ in their first page. -/
def WF (P : Nat) : Forest → Prop
  | .nil => True
  | .node _ k x v _ _ kids rest =>
    k ≠ [] ∧ P ∣ k.length ∧ v.length = k.length ∧ NoHead P x (k.take P) rest ∧ WF P kids ∧ WF P rest

/-- All slots of the tree. -/
def slots : Forest → Slots
  | .nil => []
  | .node _ _ _ v _ _ kids rest => v ++ (slots kids ++ slots rest)

/-- Tokens in locked nodes. -/
def lockedSize : Forest → Int
  | .nil => 0
  | .node _ k _ _ l _ kids rest => (if l ≠ 0 then (k.length : Int) else 0) + (lockedSize kids + lockedSize rest)

/-- Tokens in unlocked nodes. -/
def unlockedSize : Forest → Int
  | .nil => 0
  | .node _ k _ _ l _ kids rest => (if l = 0 then (k.length : Int) else 0) + (unlockedSize kids + unlockedSize rest)

/-- Every lock count is the number of locks held in the subtree. -/
def LockOk (held : List Nat) : Forest → Prop
  | .nil => True
  | .node i _ _ _ l _ kids rest =>
    l = (held.countP fun h => decide (h ∈ i :: ids kids) : Nat) ∧ LockOk held kids ∧ LockOk held rest

end Verif.PyRadix
