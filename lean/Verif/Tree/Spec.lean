import Verif.Tree.Model

/-!
# Command trees as values, and what it means that memory holds one
-/

namespace Ksh.Tree

/-- A redirection. -/
structure IoD where
  unit : Int
  flag : Nat
  name : Option Bytes
  delim : Option Bytes
  heredoc : Option Bytes
  deriving DecidableEq

/-- A command tree. -/
inductive T
  | nil
  | node (type evalflags : Nat) (lineno : Int) (str : Option Bytes) (vars args : Option (List Bytes)) (io : Option (List IoD)) (left right : T)
  deriving DecidableEq

def T.depth : T → Nat
  | .nil => 1
  | .node _ _ _ _ _ _ _ l r => max l.depth r.depth + 1

/-- At `p` there is the encoded word `w`, the `EOS` at its end included. -/
def WordAt (m : Mem) (p : Nat) (w : Bytes) : Prop :=
  ∃ s n, m p = some (.bytes s) ∧ wdscan s EOS = some n ∧ w = s.take n

/-- At `p` there is the string `s`. -/
def StrAt (m : Mem) (p : Nat) (s : Bytes) : Prop := ∃ r, m p = some (.bytes (s ++ 0 :: r)) ∧ (0 : UInt8) ∉ s

/-- The last argument of these is the list of the objects used. -/
def OptWord (m : Mem) (p : Nat) (w : Option Bytes) (l : List Nat) : Prop :=
  match w with
  | none => p = 0 ∧ l = []
  | some w => p ≠ 0 ∧ WordAt m p w ∧ l = [p]

def OptStr (m : Mem) (p : Nat) (s : Option Bytes) (l : List Nat) : Prop :=
  match s with
  | none => p = 0 ∧ l = []
  | some s => p ≠ 0 ∧ StrAt m p s ∧ l = [p]

def Words (m : Mem) : List Nat → List Bytes → Prop
  | [], [] => True
  | p :: ps, w :: ws => WordAt m p w ∧ Words m ps ws
  | _, _ => False

def ArrRep (m : Mem) (p : Nat) (ws : Option (List Bytes)) (l : List Nat) : Prop :=
  match ws with
  | none => p = 0 ∧ l = []
  | some ws => p ≠ 0 ∧ ∃ ps, readPtrs m p = some ps ∧ Words m ps ws ∧ l = ps ++ [p]

def IoRep (m : Mem) (p : Nat) (d : IoD) (l : List Nat) : Prop :=
  ∃ o l1 l2 l3, m p = some (.io o) ∧ o.unit = d.unit ∧ o.flag = d.flag ∧ OptWord m o.name d.name l1 ∧
    OptWord m o.delim d.delim l2 ∧ OptStr m o.heredoc d.heredoc l3 ∧ l = l1 ++ l2 ++ l3 ++ [p]

def Ios (m : Mem) : List Nat → List IoD → List Nat → Prop
  | [], [], l => l = []
  | p :: ps, d :: ds, l => ∃ l1 l2, IoRep m p d l1 ∧ Ios m ps ds l2 ∧ l = l1 ++ l2
  | _, _, _ => False

def IosRep (m : Mem) (p : Nat) (ds : Option (List IoD)) (l : List Nat) : Prop :=
  match ds with
  | none => p = 0 ∧ l = []
  | some ds => p ≠ 0 ∧ ∃ ps l1, readPtrs m p = some ps ∧ Ios m ps ds l1 ∧ l = l1 ++ [p]

/-- `str` is a word for `case`, else a string, if there is one. -/
def StrRep (m : Mem) (type p : Nat) (s : Option Bytes) (l : List Nat) : Prop :=
  if type = TCASE then s.isSome ∧ OptWord m p s l else OptStr m p s l

/-- At `p` there is the tree `t`, made of the objects `l`. -/
def Rep (m : Mem) (p : Nat) : T → List Nat → Prop
  | .nil, l => p = 0 ∧ l = []
  | .node type ev ln str vars args io left right, l =>
    p ≠ 0 ∧ ∃ o l1 l2 l3 l4 l5 l6, m p = some (.op o) ∧ o.type = type ∧ o.evalflags = ev ∧ o.lineno = ln ∧
      StrRep m type o.str str l1 ∧ ArrRep m o.vars vars l2 ∧ ArrRep m o.args args l3 ∧ IosRep m o.ioact io l4 ∧
      Rep m o.left left l5 ∧ Rep m o.right right l6 ∧ l = l1 ++ l2 ++ l3 ++ l4 ++ l5 ++ l6 ++ [p]

/-! ## Words -/

/-- What words are made of (tree.h:54-68). -/
inductive Item
  | char (c : UInt8)
  | qchar (c : UInt8)
  | comsub (s : Bytes)
  | exprsub (s : Bytes)
  | oquote
  | cquote
  /-- `${` or `$`: the brace or another character, and the name -/
  | osubst (s : Bytes)
  | csubst (c : UInt8)
  | opat (c : UInt8)
  | spat
  | cpat

/-- How the lexer writes them (lex.c:372-420 for `${`, whose operator is written as characters). -/
def Item.enc : Item → Bytes
  | .char c => [CHAR, c]
  | .qchar c => [QCHAR, c]
  | .comsub s => COMSUB :: s ++ [0]
  | .exprsub s => EXPRSUB :: s ++ [0]
  | .oquote => [OQUOTE]
  | .cquote => [CQUOTE]
  | .osubst s => OSUBST :: s ++ [0]
  | .csubst c => [CSUBST, c]
  | .opat c => [OPAT, c]
  | .spat => [SPAT]
  | .cpat => [CPAT]

def Item.ok : Item → Prop
  | .comsub s => (0 : UInt8) ∉ s
  | .exprsub s => (0 : UInt8) ∉ s
  | .osubst s => (0 : UInt8) ∉ s
  | _ => True

def enc (w : List Item) : Bytes := w.flatMap Item.enc

/-- Items in which every `${` has its `}` and every pattern its `)`. -/
inductive Bal : List Item → Prop
  | nil : Bal []
  | atom (i : Item) (w : List Item) (h : (∀ s, i ≠ .osubst s) ∧ (∀ c, i ≠ .csubst c) ∧ (∀ c, i ≠ .opat c) ∧ i ≠ .cpat) : Bal w → Bal (i :: w)
  | subst (s : Bytes) (c : UInt8) (u w : List Item) : Bal u → Bal w → Bal (.osubst s :: u ++ .csubst c :: w)
  | pat (c : UInt8) (u w : List Item) : Bal u → Bal w → Bal (.opat c :: u ++ .cpat :: w)

end Ksh.Tree
