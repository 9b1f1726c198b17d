/-!
# Model of brace expansion, `alt_expand` (eval.c:1262-1334)

The string is the one `expand` leaves for `alt_expand`: a list of characters in which an
active `{`, `,` or `}` (and an active pattern character, and a literal bell) is preceded by
`MAGIC`.  `start` and `exp_start` are represented by the text before `exp_start` and the
text from there on.  What happens to a finished word, `glob` or `debunk`
(eval.c:1295-1298), is the parameter `leaf`.
-/

namespace Ksh.Brace

/-- expand.h: `#define MAGIC (7)` -/
def M : Char := '\x07'

/-- eval.c:1269-1271, the search for `MAGIC` `{`.  Answer: the text before it and the text
after the pair.  A `MAGIC` that ends the string (where C would step over the NUL) does not
occur in the output of `expand`; the model stops there. -/
def findOpen : List Char → Option (List Char × List Char)
  | [] => none
  | [_] => none
  | c :: d :: r =>
    if c = M then
      if d = '{' then some ([], r)
      else (findOpen r).map fun (b, a) => (c :: d :: b, a)
    else (findOpen (d :: r)).map fun (b, a) => (c :: b, a)

/-- eval.c:1276-1287: from behind the open brace find the matching close brace.  Answer:
the text between, the text after the close brace, and whether `comma` was set. -/
def matchClose : List Char → Nat → Bool → Option (List Char × List Char × Bool)
  | [], _, _ => none
  | [_], _, _ => none
  | c :: d :: r, count, comma =>
    if c = M then
      if d = '{' then (matchClose r (count + 1) comma).map fun (b, a, m) => (c :: d :: b, a, m)
      else if d = '}' then
        if count = 1 then some ([], r, comma)
        else (matchClose r (count - 1) comma).map fun (b, a, m) => (c :: d :: b, a, m)
      else (matchClose r count (comma || (d = ',' && count = 1))).map fun (b, a, m) => (c :: d :: b, a, m)
    else (matchClose (d :: r) count comma).map fun (b, a, m) => (c :: b, a, m)

/-- eval.c:1308-1332: the fields between the braces; `fld` is the text from `field_start`
on.  The end of the list is the matching close brace. -/
def fields : List Char → Nat → List Char → List (List Char)
  | [], _, fld => [fld]
  | [c], _, fld => [fld ++ [c]]
  | c :: d :: r, count, fld =>
    if c = M then
      if d = '{' then fields r (count + 1) (fld ++ [c, d])
      else if d = '}' then fields r (count - 1) (fld ++ [c, d])
      else if d = ',' && count = 1 then fld :: fields r count []
      else fields r count (fld ++ [c, d])
    else fields (d :: r) count (fld ++ [c])

theorem findOpen_len : ∀ {l b a}, findOpen l = some (b, a) → b.length + 2 + a.length = l.length
  | [], b, a, h => by simp [findOpen] at h
  | [_], b, a, h => by simp [findOpen] at h
  | c :: d :: r, b, a, h => by
    rw [findOpen] at h
    split at h
    · split at h
      · cases h; simp; omega
      · simp only [Option.map_eq_some_iff, Prod.mk.injEq, Prod.exists] at h
        obtain ⟨b', a', h1, rfl, rfl⟩ := h
        have := findOpen_len h1
        simp; omega
    · simp only [Option.map_eq_some_iff, Prod.mk.injEq, Prod.exists] at h
      obtain ⟨b', a', h1, rfl, rfl⟩ := h
      have := findOpen_len h1
      simp at *; omega

theorem matchClose_len : ∀ {l n cm b a m}, matchClose l n cm = some (b, a, m) → b.length + 2 + a.length = l.length
  | [], n, cm, b, a, m, h => by simp [matchClose] at h
  | [_], n, cm, b, a, m, h => by simp [matchClose] at h
  | c :: d :: r, n, cm, b, a, m, h => by
    rw [matchClose] at h
    have aux : ∀ {l' : List Char} {n' cm'} {pre : List Char} (_ : (matchClose l' n' cm').map (fun (b, a, m) => (pre ++ b, a, m)) = some (b, a, m))
        (_ : ∀ b' a' m', matchClose l' n' cm' = some (b', a', m') → b'.length + 2 + a'.length = l'.length),
        b.length + 2 + a.length = pre.length + l'.length := by
      intro l' n' cm' pre h ih
      simp only [Option.map_eq_some_iff, Prod.mk.injEq, Prod.exists] at h
      obtain ⟨b', a', m', h1, rfl, rfl, rfl⟩ := h
      have := ih _ _ _ h1
      simp; omega
    split at h
    · split at h
      · have := aux (pre := [c, d]) h (fun _ _ _ => matchClose_len); simp at *; omega
      · split at h
        · split at h
          · cases h; simp; omega
          · have := aux (pre := [c, d]) h (fun _ _ _ => matchClose_len); simp at *; omega
        · have := aux (pre := [c, d]) h (fun _ _ _ => matchClose_len); simp at *; omega
    · have := aux (pre := [c]) h (fun _ _ _ => matchClose_len); simp at *; omega

theorem fields_len : ∀ (l : List Char) (n : Nat) (fld : List Char), ∀ f ∈ fields l n fld, f.length ≤ fld.length + l.length
  | [], n, fld => by simp [fields]
  | [c], n, fld => by simp [fields]
  | c :: d :: r, n, fld => by
    intro f hf
    rw [fields] at hf
    split at hf
    · split at hf
      · have := fields_len r _ _ f hf; simp at *; omega
      · split at hf
        · have := fields_len r _ _ f hf; simp at *; omega
        · split at hf
          · rcases List.mem_cons.1 hf with rfl | hf
            · omega
            · have := fields_len r _ _ f hf; simp at *; omega
          · have := fields_len r _ _ f hf; simp at *; omega
    · have := fields_len (d :: r) _ _ f hf; simp at *; omega

/-- `alt_expand` -/
def altExpand {α : Type} (leaf : List Char → List α) (pre suf : List Char) : List α :=
  match h : findOpen suf with
  | none => leaf (pre ++ suf)
  | some (b, r) =>
    match h' : matchClose r 1 false with
    | none => leaf (pre ++ suf)
    | some (body, aft, false) => altExpand leaf (pre ++ b ++ [M, '{'] ++ body ++ [M, '}']) aft
    | some (body, aft, true) =>
      (fields body 1 []).attach.flatMap fun ⟨f, _⟩ => altExpand leaf (pre ++ b) (f ++ aft)
termination_by suf.length
decreasing_by
  · have := findOpen_len h; have := matchClose_len h'; omega
  · have := findOpen_len h; have := matchClose_len h'
    have := fields_len body 1 [] f (by assumption)
    simp at *; omega

end Ksh.Brace
