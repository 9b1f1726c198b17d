import Verif.History.Model
/-!
# The storage of the history

Every function keeps `Holds`: the array owns the strings of its entries, each once, nothing else is
allocated, and no access goes wrong.
-/
namespace Ksh.History

/-- The last `n` members. -/
def lastN (n : Nat) (l : List Bytes) : List Bytes := l.drop (l.length - n)

/-- Exactly the strings `ids` are allocated, each is listed once, and their texts are `items`. -/
structure Own (heap : List (Option Bytes)) (ids : List Nat) (items : List Bytes) : Prop where
  text : ids.map (fun id => heap[id]?) = items.map (fun s => some (some s))
  nodup : ids.Nodup
  all : ∀ id s, heap[id]? = some (some s) → id ∈ ids

/-- The entries of the history are `items`. -/
structure Holds (h : H) (items : List Bytes) : Prop where
  pos : 0 < h.size
  len : h.cells.length = h.size
  le : h.n ≤ h.size
  own : ∃ ids, h.cells.take h.n = ids.map some ∧ Own h.heap ids items

theorem Own.length {heap : List (Option Bytes)} {ids : List Nat} {items : List Bytes} (h : Own heap ids items) : ids.length = items.length := by
  have := congrArg List.length h.text
  simpa using this

theorem Holds.length {h : H} {items : List Bytes} (w : Holds h items) : items.length = h.n := by
  obtain ⟨ids, e, o⟩ := w.own
  have := congrArg List.length e
  have := o.length
  have := w.len
  have := w.le
  simp only [List.length_take, List.length_map] at *
  omega

theorem Own.cons_inv {heap : List (Option Bytes)} {id : Nat} {ids : List Nat} {s : Bytes} {items : List Bytes} (h : Own heap (id :: ids) (s :: items)) :
    heap[id]? = some (some s) ∧ Own (heap.set id none) ids items := by
  have h1 : heap[id]? = some (some s) := by
    have := h.text
    simp only [List.map_cons, List.cons.injEq] at this
    exact this.1
  have hn := h.nodup
  simp only [List.nodup_cons] at hn
  refine ⟨h1, ?_, hn.2, ?_⟩
  · have := h.text
    simp only [List.map_cons, List.cons.injEq] at this
    rw [← this.2]
    refine List.map_congr_left fun k hk => ?_
    rw [List.getElem?_set_ne]
    intro e
    exact hn.1 (e ▸ hk)
  · intro k t hk
    have hne : id ≠ k := by
      intro e
      subst e
      rw [List.getElem?_set_self'] at hk
      simp [h1] at hk
    rw [List.getElem?_set_ne hne] at hk
    rcases List.mem_cons.1 (h.all k t hk) with e | e
    · exact absurd e.symm hne
    · exact e

theorem Own.snoc {heap : List (Option Bytes)} {ids : List Nat} {items : List Bytes} (h : Own heap ids items) (c : Bytes) :
    Own (heap ++ [some c]) (ids ++ [heap.length]) (items ++ [c]) := by
  have lt : ∀ id ∈ ids, id < heap.length := by
    intro id hid
    have hl : heap[id]? ∈ ids.map (fun id => heap[id]?) := List.mem_map_of_mem hid
    rw [h.text] at hl
    obtain ⟨s, _, hs⟩ := List.mem_map.1 hl
    exact (List.getElem?_eq_some_iff.1 hs.symm).1
  refine ⟨?_, ?_, ?_⟩
  · simp only [List.map_append, List.map_cons, List.map_nil]
    congr 1
    · rw [← h.text]
      refine List.map_congr_left fun k hk => ?_
      rw [List.getElem?_append_left (lt k hk)]
    · simp
  · rw [List.nodup_append]
    refine ⟨h.nodup, by simp, ?_⟩
    intro a ha b hb
    simp only [List.mem_singleton] at hb
    have := lt a ha
    omega
  · intro id s hs
    by_cases hl : id < heap.length
    · rw [List.getElem?_append_left hl] at hs
      exact List.mem_append_left _ (h.all id s hs)
    · rw [List.getElem?_append_right (by omega)] at hs
      have : id - heap.length = 0 := by
        have := (List.getElem?_eq_some_iff.1 hs).1
        simpa using this
      have : id = heap.length := by omega
      simp [this]

/-- The entry at a position can be read. -/
theorem Holds.get {h : H} {items : List Bytes} (w : Holds h items) {i : Nat} (hi : i < h.n) : ∃ s, items[i]? = some s ∧ History.get h i = some s := by
  obtain ⟨ids, e, o⟩ := w.own
  have hl := w.length
  have hid : i < ids.length := by rw [o.length]; omega
  have hit : i < items.length := by omega
  have hc : h.cells[i]? = some (some ids[i]) := by
    have : (h.cells.take h.n)[i]? = (ids.map some)[i]? := by rw [e]
    rw [List.getElem?_take_of_lt hi] at this
    rw [this]
    simp [hid]
  have ht : h.heap[ids[i]]? = some (some items[i]) := by
    have : (ids.map (fun id => h.heap[id]?))[i]? = (items.map (fun s => some (some s)))[i]? := by rw [o.text]
    simpa [hid, hit] using this
  exact ⟨items[i], by simp [hit], by simp [History.get, hc, ht]⟩

/-- Freeing the first `k` entries: the array is left, the strings are gone. -/
theorem freeFrom_spec (k : Nat) : ∀ (h : H) (i : Nat) (ids : List Nat) (items : List Bytes), h.cells.length ≥ i + k →
    (h.cells.drop i).take k = (ids.take k).map some → k ≤ ids.length → Own h.heap ids items →
    ∃ hp, freeFrom h i k = some { h with heap := hp } ∧ Own hp (ids.drop k) (items.drop k) := by
  induction k with
  | zero =>
    intro h i ids items _ _ _ o
    exact ⟨h.heap, rfl, by simpa using o⟩
  | succ k ih =>
    intro h i ids items hc e hk o
    cases ids with
    | nil => simp at hk
    | cons id ids =>
      cases items with
      | nil => have := o.length; simp at this
      | cons s items =>
        have hi : i < h.cells.length := by omega
        have hd : h.cells.drop i = h.cells[i] :: h.cells.drop (i + 1) := List.drop_eq_getElem_cons hi
        rw [hd] at e
        simp only [List.take_succ_cons, List.map_cons, List.cons.injEq] at e
        have hci : h.cells[i]? = some (some id) := by rw [List.getElem?_eq_getElem hi, e.1]
        obtain ⟨h1, h2⟩ := o.cons_inv
        have hf : freeAt h i = some { h with heap := h.heap.set id none } := by simp [freeAt, hci, h1]
        obtain ⟨hp, g1, g2⟩ := ih { h with heap := h.heap.set id none } (i + 1) ids items (by show _ ≤ h.cells.length; omega) e.2
          (by simpa using hk) h2
        exact ⟨hp, by simp only [freeFrom, hf, Option.bind_some, g1], by simpa using g2⟩

/-- Setting the last entry of an array whose other entries are in order. -/
theorem setLast_spec {h : H} {ids : List Nat} {items : List Bytes} (hpos : 0 < h.size) (hl : h.cells.length = h.size) (hle : h.n ≤ h.size) (hn : 0 < h.n)
    (e : h.cells.take (h.n - 1) = ids.map some) (o : Own h.heap ids items) (c : Bytes) :
    ∃ cs hp, setLast h c = some { h with cells := cs, heap := hp } ∧ Holds { h with cells := cs, heap := hp } (items ++ [c]) := by
  refine ⟨h.cells.set (h.n - 1) (some h.heap.length), h.heap ++ [some c], by simp only [setLast]; rw [if_pos ⟨hn, by omega⟩], hpos, by simpa using hl, hle, ids ++ [h.heap.length], ?_, o.snoc c⟩
  simp only [List.map_append, List.map_cons, List.map_nil, ← e]
  refine List.ext_getElem? fun i => ?_
  have h1 : (h.cells.take (h.n - 1)).length = h.n - 1 := by simp; omega
  by_cases hi : i < h.n - 1
  · rw [List.getElem?_take_of_lt (by omega), List.getElem?_set_ne (by omega), List.getElem?_append_left (by omega), List.getElem?_take_of_lt hi]
  · by_cases hi2 : i = h.n - 1
    · subst hi2
      rw [List.getElem?_take_of_lt (by omega), List.getElem?_append_right (by omega), h1, List.getElem?_set_self (by omega)]
      simp
    · rw [List.getElem?_take_eq_none (by omega), List.getElem?_append_right (by omega), h1]
      rw [List.getElem?_eq_none (by simp; omega)]

/-- **C40** Adding an entry: the oldest is dropped when the array is full. -/
theorem push_spec {h : H} {items : List Bytes} (w : Holds h items) (c : Bytes) :
    ∃ cs hp, push h c = some { h with n := (lastN h.size (items ++ [c])).length, cells := cs, heap := hp } ∧
      Holds { h with n := (lastN h.size (items ++ [c])).length, cells := cs, heap := hp } (lastN h.size (items ++ [c])) := by
  have hlen := w.length
  obtain ⟨ids, e, o⟩ := w.own
  have hpos := w.pos
  have hcl := w.len
  have hle := w.le
  by_cases hn : h.n < h.size
  · have hk : lastN h.size (items ++ [c]) = items ++ [c] := by
      have : items.length + 1 - h.size = 0 := by omega
      simp [lastN, this]
    obtain ⟨cs, hp, g1, g2⟩ := setLast_spec (h := { h with n := h.n + 1 }) hpos hcl (by show h.n + 1 ≤ h.size; omega) (Nat.succ_pos _) e o c
    have hc : (items ++ [c]).length = h.n + 1 := by simp [hlen]
    rw [hk, hc]
    exact ⟨cs, hp, by simp only [push, hn, if_true, g1], g2⟩
  · have hnn : h.n = h.size := by omega
    cases items with
    | nil => simp at hlen; omega
    | cons s items =>
      cases ids with
      | nil => have := o.length; simp at this
      | cons id ids =>
        have hk : lastN h.size ((s :: items) ++ [c]) = items ++ [c] := by
          simp only [List.length_cons] at hlen
          have : (s :: items ++ [c]).length - h.size = 1 := by simp; omega
          simp only [lastN, this]
          rfl
        rw [hnn, List.take_of_length_le (by omega)] at e
        have hc0 : h.cells[0]? = some (some id) := by rw [e]; rfl
        obtain ⟨h1, h2⟩ := o.cons_inv
        have hf : freeAt h 0 = some { h with heap := h.heap.set id none } := by simp [freeAt, hc0, h1]
        have e2 : h.cells.drop 1 = ids.map some := by rw [e]; rfl
        have hidl : ids.length = h.size - 1 := by
          have := congrArg List.length e2
          simp only [List.length_drop, List.length_map] at this
          omega
        obtain ⟨cs, hp, g1, g2⟩ := setLast_spec
          (h := { h with heap := h.heap.set id none, cells := h.cells.drop 1 ++ h.cells.drop (h.size - 1) }) (ids := ids) (items := items) hpos
          (by simp; omega) hle (by show 0 < h.n; omega)
          (by
            show (h.cells.drop 1 ++ h.cells.drop (h.size - 1)).take (h.n - 1) = ids.map some
            rw [e2, List.take_append_of_le_length (by simp; omega), List.take_of_length_le (by simp; omega)])
          h2 c
        have hc : (items ++ [c]).length = h.n := by simp at hlen ⊢; omega
        rw [hk, hc]
        exact ⟨cs, hp, by simp only [push, hn, if_false, hf, Option.bind_some, g1], g2⟩

/-- `g` has the settings of `h`. -/
def Same (h g : H) : Prop := g.size = h.size ∧ g.dups = h.dups ∧ g.space = h.space ∧ g.named = h.named ∧ g.hi = h.hi ∧ g.lastLine = h.lastLine

theorem Same.refl (h : H) : Same h h := ⟨rfl, rfl, rfl, rfl, rfl, rfl⟩

theorem Same.trans {h g k : H} (a : Same h g) (b : Same g k) : Same h k :=
  ⟨b.1.trans a.1, b.2.1.trans a.2.1, b.2.2.1.trans a.2.2.1, b.2.2.2.1.trans a.2.2.2.1, b.2.2.2.2.1.trans a.2.2.2.2.1, b.2.2.2.2.2.trans a.2.2.2.2.2⟩

theorem push_ok {h : H} {items : List Bytes} (w : Holds h items) (c : Bytes) :
    ∃ g, push h c = some g ∧ Holds g (lastN h.size (items ++ [c])) ∧ Same h g ∧ g.line = h.line ∧ g.file = h.file := by
  obtain ⟨cs, hp, g1, g2⟩ := push_spec w c
  exact ⟨_, g1, g2, Same.refl _, rfl, rfl⟩

theorem getLast?_eq {l : List Bytes} {n : Nat} (h : l.length = n) : l[n - 1]? = l.getLast? := by
  subst h
  rw [List.getLast?_eq_getElem?]

/-- What histsave keeps of a command, or `none` if it is not saved. -/
def kept (dups space : Bool) (last : Option Bytes) (cmd : Bytes) : Option Bytes :=
  if space = true ∧ cmd.head? = some 0x20 then none
  else if dups = true ∧ last = some (chop cmd) then none
  else some (chop cmd)

theorem accept_spec {h : H} {items : List Bytes} (w : Holds h items) (cmd : Bytes) :
    accept h cmd = some (kept h.dups h.space items.getLast? cmd) := by
  have hl := w.length
  simp only [accept, kept]
  by_cases hs : h.space = true ∧ cmd.head? = some 0x20
  · simp [hs]
  · have : (h.space && cmd.head? == some 0x20) = false := by
      cases h1 : h.space <;> simp_all
    simp only [this, hs, if_false, Bool.false_eq_true]
    by_cases hd : h.dups = true
    · by_cases hn : 0 < h.n
      · obtain ⟨s, h1, h2⟩ := w.get (i := h.n - 1) (by omega)
        rw [getLast?_eq hl] at h1
        simp only [hd, hn, decide_true, Bool.and_self, if_true, h2, h1, Option.some.injEq, true_and]
      · have : items = [] := List.length_eq_zero_iff.1 (by omega)
        simp [hd, hn, this]
    · simp [hd]

/-- The entries after a command was handed to histsave. -/
def added (h : H) (items : List Bytes) (cmd : Bytes) : List Bytes :=
  match kept h.dups h.space items.getLast? cmd with
  | none => items
  | some c => lastN h.size (items ++ [c])

theorem saveMem_spec {h : H} {items : List Bytes} (w : Holds h items) (cmd : Bytes) :
    ∃ g, saveMem h cmd = some g ∧ Holds g (added h items cmd) ∧ Same h g ∧ g.line = h.line ∧ g.file = h.file := by
  simp only [saveMem, accept_spec w, Option.bind_some, added]
  cases kept h.dups h.space items.getLast? cmd with
  | none => exact ⟨h, rfl, w, Same.refl h, rfl, rfl⟩
  | some c =>
    exact push_ok w c

theorem Holds.setLine {h : H} {items : List Bytes} (w : Holds h items) (k : Int) : Holds { h with line := k } items :=
  ⟨w.pos, w.len, w.le, w.own⟩

/-- The entries after the lines of a file were loaded. -/
def loaded (h : H) (items : List Bytes) (ls : List Bytes) : List Bytes := ls.foldl (added h) items

theorem added_congr {h g : H} (e : Same h g) (items : List Bytes) (c : Bytes) : added g items c = added h items c := by
  simp only [added, e.1, e.2.1, e.2.2.1]

theorem loaded_congr {h g : H} (e : Same h g) (items ls : List Bytes) : loaded g items ls = loaded h items ls := by
  simp only [loaded]
  congr 1
  funext a b
  exact added_congr e a b

theorem loadLines_spec (ls : List Bytes) : ∀ {h : H} {items : List Bytes} (lineCo : Nat), Holds h items →
    ∃ g, loadLines h lineCo ls = some (g, lineCo + ls.length) ∧ Holds g (loaded h items ls) ∧ Same h g ∧
      g.line = (if ls = [] then h.line else (lineCo + ls.length - 1 : Nat)) ∧ g.file = h.file := by
  induction ls with
  | nil => intro h items k w; exact ⟨h, rfl, w, Same.refl h, rfl, rfl⟩
  | cons l ls ih =>
    intro h items k w
    obtain ⟨g, g1, g2, g3, g4, g5⟩ := saveMem_spec (w.setLine k) l
    obtain ⟨g', e1, e2, e3, e4, e5⟩ := ih (k + 1) g2
    refine ⟨g', ?_, ?_, ?_, ?_, ?_⟩
    · simp only [loadLines, g1, Option.bind_some, e1, List.length_cons, Option.some.injEq, Prod.mk.injEq, true_and]
      omega
    · rw [loaded_congr (h := h) g3] at e2
      exact e2
    · exact Same.trans g3 e3
    · rw [e4]
      cases ls with
      | nil => simp [g4]
      | cons x xs => simp; omega
    · exact e5.trans g5

theorem entries_spec {h : H} {items : List Bytes} (w : Holds h items) (k : Nat) (hk : k ≤ h.n) : entries h k = some (items.take k) := by
  induction k with
  | zero => simp [entries]
  | succ k ih =>
    obtain ⟨s, h1, h2⟩ := w.get (i := k) (by omega)
    simp only [entries, ih (by omega), Option.bind_some, h2, Option.map_some, Option.some.injEq]
    rw [List.take_add_one, h1]
    rfl

theorem Holds.setF {h : H} {items : List Bytes} (w : Holds h items) (f : Option F) : Holds { h with file := f } items :=
  ⟨w.pos, w.len, w.le, w.own⟩

/-- **C64** The file is rewritten with the entries when it has grown too long. -/
theorem write_spec {h : H} {items : List Bytes} (w : Holds h items) (f : F) :
    write h f = some { h with file := some (if f.lineCo < h.size + h.size / 4 then f else { text := fileOf h.hi items, stale := false, lineCo := h.size }) } := by
  have hl := w.length
  simp only [write]
  split
  · rfl
  · rw [entries_spec w h.n (Nat.le_refl _), ← hl, List.take_length]
    rfl

theorem reset_spec {h : H} {items : List Bytes} (w : Holds h items) :
    ∃ hp, reset h = some { h with heap := hp, n := 0, line := 0 } ∧ Holds { h with heap := hp, n := 0, line := 0 } [] := by
  have hlen := w.length
  obtain ⟨ids, e, o⟩ := w.own
  have hcl := w.len
  have hle := w.le
  have hil : ids.length = h.n := by rw [o.length, hlen]
  obtain ⟨hp, g1, g2⟩ := freeFrom_spec h.n h 0 ids items (by omega) (by rw [List.drop_zero, e, List.take_of_length_le (by omega)]) (by omega) o
  rw [List.drop_of_length_le (by omega), List.drop_of_length_le (by omega)] at g2
  exact ⟨hp, by simp only [reset, g1, Option.map_some], w.pos, hcl, Nat.zero_le _, [], rfl, g2⟩

/-- The commands in the text of a file. -/
def decode (t : Bytes) : List Bytes := (lines t.length t).map strunvis

/-- **C64** Loading the file adds its commands to the entries. -/
theorem load_spec {h : H} {items : List Bytes} (w : Holds h items) (f : F) :
    ∃ g, load h f = some g ∧ Holds g (loaded h items (decode f.text)) ∧ Same h g ∧ (∃ f', g.file = some f') ∧
      g.line = (if decode f.text = [] then h.line else ((decode f.text).length : Int)) := by
  obtain ⟨g, g1, g2, g3, g4, g5⟩ := loadLines_spec (decode f.text) 1 w
  have key : g.line = (if decode f.text = [] then h.line else ((decode f.text).length : Int)) := by
    rw [g4]
    split
    · rfl
    · congr 1; omega
  simp only [load]
  rw [show (lines f.text.length f.text).map strunvis = decode f.text from rfl, g1]
  simp only [Option.bind_some]
  split
  · rw [write_spec g2]
    exact ⟨_, rfl, g2.setF _, g3, ⟨_, rfl⟩, key⟩
  · exact ⟨_, rfl, g2.setF _, g3, ⟨_, rfl⟩, key⟩

/-- The entries after histsave, when the file may have to be read again. -/
def saved (h : H) (items : List Bytes) (cmd : Bytes) : List Bytes :=
  match kept h.dups h.space items.getLast? cmd with
  | none => items
  | some c =>
    match h.file with
    | some f => if f.stale then lastN h.size (loaded h [] (decode f.text) ++ [c]) else lastN h.size (items ++ [c])
    | none => lastN h.size (items ++ [c])

theorem save_spec {h : H} {items : List Bytes} (w : Holds h items) (cmd : Bytes) :
    ∃ g, save h cmd = some g ∧ Holds g (saved h items cmd) ∧ Same h g := by
  simp only [save, accept_spec w, Option.bind_some, saved]
  cases kept h.dups h.space items.getLast? cmd with
  | none => exact ⟨h, rfl, w, Same.refl h⟩
  | some c =>
    cases hf : h.file with
    | none =>
      obtain ⟨cs, hp, g1, g2⟩ := push_spec w c
      exact ⟨_, g1, g2, Same.refl _⟩
    | some f =>
      have tail : ∀ (g : H) (it : List Bytes), Holds g it → Same h g → ∃ r, ((push g c).bind fun h =>
            match h.file with
            | none => some h
            | some f => write h { text := f.text ++ (strvis h.hi c ++ [0x0a]), stale := false, lineCo := f.lineCo + 1 }) = some r ∧
          Holds r (lastN h.size (it ++ [c])) ∧ Same h r := by
        intro g it wg sg
        obtain ⟨r, g1, g2, g3, _, _⟩ := push_ok wg c
        rw [sg.1] at g2
        rw [g1, Option.bind_some]
        have sr := Same.trans sg g3
        split
        · exact ⟨_, rfl, g2, sr⟩
        · rw [write_spec g2]
          exact ⟨_, rfl, g2.setF _, sr⟩
      by_cases hs : f.stale = true
      · simp only [hs, if_true]
        obtain ⟨hp, e1, e2⟩ := reset_spec w
        obtain ⟨g, l1, l2, l3, l4, l5⟩ := load_spec e2 f
        rw [e1, Option.bind_some, l1, Option.bind_some]
        have sg : Same h g := Same.trans (Same.refl _) l3
        have := tail g _ l2 sg
        exact this
      · simp only [hs, if_false, Option.bind_some, Bool.false_eq_true]
        exact tail h items w (Same.refl h)

theorem Own.snoc_inv {heap : List (Option Bytes)} {id : Nat} {ids : List Nat} {s : Bytes} {items : List Bytes} (h : Own heap (ids ++ [id]) (items ++ [s])) :
    heap[id]? = some (some s) ∧ Own (heap.set id none) ids items := by
  have hl := h.length
  have ht := h.text
  simp only [List.map_append, List.map_cons, List.map_nil] at ht
  simp only [List.length_append, List.length_cons, List.length_nil] at hl
  obtain ⟨t1, t2⟩ := List.append_inj ht (by simp; omega)
  have h1 : heap[id]? = some (some s) := by simpa using t2
  have hn := h.nodup
  rw [List.nodup_append] at hn
  have hnm : ∀ k ∈ ids, id ≠ k := fun k hk e => hn.2.2 k hk id (by simp) e.symm
  refine ⟨h1, ?_, hn.1, ?_⟩
  · rw [← t1]
    refine List.map_congr_left fun k hk => ?_
    rw [List.getElem?_set_ne (hnm k hk)]
  · intro k t hk
    have hne : id ≠ k := by
      intro e
      subst e
      rw [List.getElem?_set_self'] at hk
      simp [h1] at hk
    rw [List.getElem?_set_ne hne] at hk
    rcases List.mem_append.1 (h.all k t hk) with e | e
    · exact e
    · simp only [List.mem_singleton] at e
      exact absurd e.symm hne

/-- histbackup takes the last entry away. -/
theorem backup_spec {h : H} {items : List Bytes} (w : Holds h items) :
    ∃ g, backup h = some g ∧ (g.size = h.size ∧ g.dups = h.dups ∧ g.space = h.space ∧ g.file = h.file) ∧
      Holds g (if 0 < h.n ∧ h.lastLine ≠ h.line then items.dropLast else items) ∧
      (0 < h.n ∧ h.lastLine ≠ h.line → g.line = h.line - 1 ∧ g.n = h.n - 1) := by
  simp only [backup]
  have hlen := w.length
  split
  · rename_i hc
    obtain ⟨ids, e, o⟩ := w.own
    have hil := o.length
    have hcl := w.len
    have hle := w.le
    obtain ⟨items, s, rfl⟩ : ∃ l s, items = l ++ [s] := by
      refine ⟨items.dropLast, items.getLast (by intro e; simp [e] at hlen; omega), (List.dropLast_concat_getLast _).symm⟩
    obtain ⟨ids, id, rfl⟩ : ∃ l s, ids = l ++ [s] := by
      refine ⟨ids.dropLast, ids.getLast (by intro e; simp [e] at hil), (List.dropLast_concat_getLast _).symm⟩
    obtain ⟨h1, h2⟩ := o.snoc_inv
    simp only [List.length_append, List.length_cons, List.length_nil] at hlen hil
    have hci : h.cells[h.n - 1]? = some (some id) := by
      have : (h.cells.take h.n)[h.n - 1]? = ((ids ++ [id]).map some)[h.n - 1]? := by rw [e]
      rw [List.getElem?_take_of_lt (by omega)] at this
      rw [this]
      have : h.n - 1 = ids.length := by omega
      simp [this]
    have hf : freeAt h (h.n - 1) = some { h with heap := h.heap.set id none } := by simp [freeAt, hci, h1]
    rw [hf, Option.map_some]
    refine ⟨_, rfl, ⟨rfl, rfl, rfl, rfl⟩, ?_, fun _ => ⟨rfl, rfl⟩⟩
    refine ⟨w.pos, hcl, by show h.n - 1 ≤ h.size; omega, ids, ?_, by simpa using h2⟩
    show h.cells.take (h.n - 1) = ids.map some
    have : h.cells.take (h.n - 1) = (h.cells.take h.n).take (h.n - 1) := by rw [List.take_take]; congr 1; omega
    rw [this, e]
    have : h.n - 1 = (ids.map some).length := by simp; omega
    rw [this, List.map_append, List.take_left]
  · rename_i hc
    exact ⟨h, rfl, ⟨rfl, rfl, rfl, rfl⟩, w, fun e => absurd e hc⟩

/-- **C40** A change of HISTSIZE keeps the most recent entries. -/
theorem resize_spec {h : H} {items : List Bytes} (w : Holds h items) {n : Nat} (hn : 0 < n) :
    ∃ g, resize h n true = some g ∧ Holds g (lastN n items) ∧ g.line = h.line ∧ g.file = h.file ∧ g.dups = h.dups ∧ g.space = h.space ∧ g.size = n := by
  have hlen := w.length
  have hcl := w.len
  have hle := w.le
  simp only [resize]
  by_cases he : n = h.size
  · refine ⟨h, by simp [he], ?_, rfl, rfl, rfl, rfl, he.symm⟩
    have : items.length - n = 0 := by omega
    simpa [lastN, this] using w
  · rw [if_neg he]
    obtain ⟨ids, e, o⟩ := w.own
    have hil := o.length
    by_cases hb : h.n > n
    · rw [if_pos hb]
      obtain ⟨hp, g1, g2⟩ := freeFrom_spec (h.n - n) h 0 ids items (by omega)
        (by
          rw [List.drop_zero, List.map_take, ← e, List.take_take]
          congr 1
          omega)
        (by omega) o
      rw [g1]
      simp only [Option.map_some, if_true]
      refine ⟨_, rfl, ⟨hn, ?_, Nat.le_refl _, ids.drop (h.n - n), ?_, ?_⟩, rfl, rfl, rfl, rfl, rfl⟩
      · simp; omega
      · simp only
        have l1 : ((h.cells.drop (h.n - n)).take n).length = n := by simp; omega
        have l2 : (((h.cells.drop (h.n - n)).take n ++ h.cells.drop n).take n) = (h.cells.drop (h.n - n)).take n := by
          rw [List.take_append_of_le_length (by omega), List.take_of_length_le (by omega)]
        rw [l2, List.take_append_of_le_length (by omega), List.take_of_length_le (by omega)]
        rw [List.map_drop, ← e, List.drop_take]
        congr 1
        omega
      · have : lastN n items = items.drop (h.n - n) := by simp [lastN, hlen]
        rw [this]
        exact g2
    · rw [if_neg hb]
      simp only [Option.map_some, if_true]
      refine ⟨_, rfl, ⟨hn, ?_, by show h.n ≤ n; omega, ids, ?_, ?_⟩, rfl, rfl, rfl, rfl, rfl⟩
      · simp; omega
      · show (h.cells.take n ++ List.replicate (n - h.cells.length) none).take h.n = ids.map some
        rw [List.take_append_of_le_length (by simp; omega), List.take_take, ← e]
        congr 1
        omega
      · have : items.length - n = 0 := by omega
        simpa [lastN, this] using o

/-- Growing the array fails: nothing is changed. -/
theorem grow_fails {h : H} {items : List Bytes} (w : Holds h items) {n : Nat} (hn : h.n ≤ n) : ∃ g, resize h n false = some g ∧ Holds g items := by
  simp only [resize]
  split
  · exact ⟨h, rfl, w⟩
  · rw [if_neg (by omega)]
    exact ⟨h, rfl, w⟩

theorem saveAll_spec (ls : List Bytes) : ∀ {h : H} {items : List Bytes}, Holds h items → ∃ g it, saveAll h ls = some g ∧ Holds g it := by
  induction ls with
  | nil => intro h items w; exact ⟨h, items, rfl, w⟩
  | cons l ls ih =>
    intro h items w
    obtain ⟨g, g1, g2, _⟩ := save_spec (w.setLine (h.line + 1)) l
    obtain ⟨r, it, r1, r2⟩ := ih g2
    exact ⟨r, it, by simp only [saveAll, g1, Option.bind_some, r1], r2⟩

/-- The operation does not make the array smaller while reallocarray fails. -/
def Op.Fine (h : H) : Op → Prop
  | .resize n false => h.n ≤ n
  | _ => True

theorem step_safe {h : H} {items : List Bytes} (w : Holds h items) (op : Op) (hf : op.Fine h) : ∃ g it, step h op = some g ∧ Holds g it := by
  cases op with
  | cmd c => obtain ⟨g, g1, g2, _⟩ := save_spec (w.setLine (h.line + 1)) c; exact ⟨g, _, g1, g2⟩
  | other c => obtain ⟨g, g1, g2, _⟩ := save_spec w c; exact ⟨g, _, g1, g2⟩
  | control d s => exact ⟨_, items, rfl, w.pos, w.len, w.le, w.own⟩
  | resize n ok =>
    simp only [step]
    split
    · rename_i hn
      cases ok with
      | true => obtain ⟨g, g1, g2, _⟩ := resize_spec w hn; exact ⟨g, _, g1, g2⟩
      | false => obtain ⟨g, g1, g2⟩ := grow_fails w hf; exact ⟨g, _, g1, g2⟩
    · exact ⟨h, items, rfl, w⟩
  | execute c =>
    obtain ⟨g, g1, _, g2, _⟩ := backup_spec w
    obtain ⟨r, it, r1, r2⟩ := saveAll_spec (cmdLines c) g2
    exact ⟨r, it, by simp only [step, execute, g1, Option.bind_some, r1], r2⟩
  | setFile f =>
    have key : ∀ {g : H} {it : List Bytes}, Holds g it → ∃ r it, openFile g f = some r ∧ Holds r it := by
      intro g it wg
      cases f with
      | none => exact ⟨_, it, rfl, wg.pos, wg.len, wg.le, wg.own⟩
      | some t =>
        simp only [openFile]
        split
        · exact ⟨_, it, rfl, wg.pos, wg.len, wg.le, wg.own⟩
        · obtain ⟨r, r1, r2, _⟩ := load_spec (h := { g with named := true }) ⟨wg.pos, wg.len, wg.le, wg.own⟩ { text := t }
          exact ⟨r, _, r1, r2⟩
    simp only [step, setFile]
    split
    · obtain ⟨hp, e1, e2⟩ := reset_spec w
      rw [e1, Option.bind_some]
      exact key e2
    · exact key w
  | ext t => exact ⟨_, items, rfl, w.pos, w.len, w.le, w.own⟩

theorem holds_init (size : Nat) (hi : Byte → Bool) (hs : 0 < size) : Holds (init size hi) [] :=
  ⟨hs, by simp [init], Nat.zero_le _, [], rfl, rfl, by simp, by simp [init]⟩

/-- Every resize that makes the array smaller succeeds. -/
inductive Fine : H → List Op → Prop
  | nil (h) : Fine h []
  | cons {h g op l} : op.Fine h → step h op = some g → Fine g l → Fine h (op :: l)
  | fault {h op l} : op.Fine h → step h op = none → Fine h (op :: l)

/-- **C63** No sequence of commands, changes of HISTSIZE, HISTCONTROL and HISTFILE, uses of `fc` and
changes of the file by other processes makes the shell access the array outside its bounds, read
a freed entry or free one twice; in the end exactly the strings of the entries are allocated.

Partial: a reallocarray that makes the array smaller must not fail, see `shrink_fails`. -/
theorem history_safe_partial (size : Nat) (hi : Byte → Bool) (hs : 0 < size) (l : List Op) (hl : Fine (init size hi) l) :
    ∃ h items, run (init size hi) l = some h ∧ Holds h items := by
  have key : ∀ (l : List Op) {h : H} {items : List Bytes}, Holds h items → Fine h l → ∃ g it, run h l = some g ∧ Holds g it := by
    intro l
    induction l with
    | nil => intro h items w _; exact ⟨h, items, rfl, w⟩
    | cons op l ih =>
      intro h items w hl
      cases hl with
      | cons h1 h2 h3 =>
        obtain ⟨g, it, g1, g2⟩ := step_safe w op h1
        rw [h2] at g1
        cases g1
        obtain ⟨r, it, r1, r2⟩ := ih g2 h3
        exact ⟨r, it, by simp only [run, h2, Option.bind_some, r1], r2⟩
      | fault h1 h2 =>
        obtain ⟨g, it, g1, g2⟩ := step_safe w op h1
        rw [h2] at g1
        cases g1
  exact key l (holds_init size hi hs) hl

/-- **C63** When reallocarray fails to make the array smaller, the entries that were to be dropped
are freed although they are still entries: `fc -l` reads a freed string, and a later command
frees it again. -/
theorem shrink_fails : ∃ h, run (init 4 (fun _ => false)) [.cmd [0x61], .cmd [0x62], .cmd [0x63], .resize 1 false] = some h ∧
    h.n = 3 ∧ get h 1 = none ∧ run h [.cmd [0x64], .cmd [0x65], .cmd [0x66]] = none := by
  refine ⟨_, rfl, ?_⟩
  decide +kernel

end Ksh.History
