import Verif.Keys.Model
/-!
# The tables of emacs.c

`ftab` is x_ftab (emacs.c:206-266, without DEBUG), `defaults` the calls of
`kb_add` in x_init_emacs (emacs.c:1470-1582), each with the index of its function in `ftab`.
-/

namespace Ksh.Keys

/-- x_ftab (emacs.c:206-266): name and XF_NOBIND. -/
def ftab : List Func := [
  ⟨[97, 98, 111, 114, 116], false⟩ /- abort -/,
  ⟨[98, 101, 103, 105, 110, 110, 105, 110, 103, 45, 111, 102, 45, 104, 105, 115, 116, 111, 114, 121], false⟩ /- beginning-of-history -/,
  ⟨[99, 108, 101, 97, 114, 45, 115, 99, 114, 101, 101, 110], false⟩ /- clear-screen -/,
  ⟨[99, 111, 109, 112, 108, 101, 116, 101, 45, 99, 111, 109, 109, 97, 110, 100], false⟩ /- complete-command -/,
  ⟨[99, 111, 109, 112, 108, 101, 116, 101, 45, 102, 105, 108, 101], false⟩ /- complete-file -/,
  ⟨[99, 111, 109, 112, 108, 101, 116, 101], false⟩ /- complete -/,
  ⟨[100, 101, 108, 101, 116, 101, 45, 99, 104, 97, 114, 45, 98, 97, 99, 107, 119, 97, 114, 100], false⟩ /- delete-char-backward -/,
  ⟨[100, 101, 108, 101, 116, 101, 45, 119, 111, 114, 100, 45, 98, 97, 99, 107, 119, 97, 114, 100], false⟩ /- delete-word-backward -/,
  ⟨[100, 101, 108, 101, 116, 101, 45, 99, 104, 97, 114, 45, 102, 111, 114, 119, 97, 114, 100], false⟩ /- delete-char-forward -/,
  ⟨[100, 101, 108, 101, 116, 101, 45, 119, 111, 114, 100, 45, 102, 111, 114, 119, 97, 114, 100], false⟩ /- delete-word-forward -/,
  ⟨[107, 105, 108, 108, 45, 108, 105, 110, 101], false⟩ /- kill-line -/,
  ⟨[114, 101, 100, 114, 97, 119], false⟩ /- redraw -/,
  ⟨[101, 110, 100, 45, 111, 102, 45, 104, 105, 115, 116, 111, 114, 121], false⟩ /- end-of-history -/,
  ⟨[101, 111, 116], false⟩ /- eot -/,
  ⟨[108, 105, 115, 116], false⟩ /- list -/,
  ⟨[101, 111, 116, 45, 111, 114, 45, 100, 101, 108, 101, 116, 101], false⟩ /- eot-or-delete -/,
  ⟨[101, 114, 114, 111, 114], false⟩ /- error -/,
  ⟨[103, 111, 116, 111, 45, 104, 105, 115, 116, 111, 114, 121], false⟩ /- goto-history -/,
  ⟨[109, 97, 99, 114, 111, 45, 115, 116, 114, 105, 110, 103], true⟩ /- macro-string -/,
  ⟨[97, 117, 116, 111, 45, 105, 110, 115, 101, 114, 116], false⟩ /- auto-insert -/,
  ⟨[107, 105, 108, 108, 45, 116, 111, 45, 101, 111, 108], false⟩ /- kill-to-eol -/,
  ⟨[107, 105, 108, 108, 45, 114, 101, 103, 105, 111, 110], false⟩ /- kill-region -/,
  ⟨[108, 105, 115, 116, 45, 99, 111, 109, 109, 97, 110, 100], false⟩ /- list-command -/,
  ⟨[108, 105, 115, 116, 45, 102, 105, 108, 101], false⟩ /- list-file -/,
  ⟨[113, 117, 111, 116, 101], false⟩ /- quote -/,
  ⟨[121, 97, 110, 107, 45, 112, 111, 112], false⟩ /- yank-pop -/,
  ⟨[98, 97, 99, 107, 119, 97, 114, 100, 45, 99, 104, 97, 114], false⟩ /- backward-char -/,
  ⟨[98, 101, 103, 105, 110, 110, 105, 110, 103, 45, 111, 102, 45, 108, 105, 110, 101], false⟩ /- beginning-of-line -/,
  ⟨[98, 97, 99, 107, 119, 97, 114, 100, 45, 119, 111, 114, 100], false⟩ /- backward-word -/,
  ⟨[101, 110, 100, 45, 111, 102, 45, 108, 105, 110, 101], false⟩ /- end-of-line -/,
  ⟨[102, 111, 114, 119, 97, 114, 100, 45, 99, 104, 97, 114], false⟩ /- forward-char -/,
  ⟨[102, 111, 114, 119, 97, 114, 100, 45, 119, 111, 114, 100], false⟩ /- forward-word -/,
  ⟨[110, 101, 119, 108, 105, 110, 101], false⟩ /- newline -/,
  ⟨[100, 111, 119, 110, 45, 104, 105, 115, 116, 111, 114, 121], false⟩ /- down-history -/,
  ⟨[110, 101, 119, 108, 105, 110, 101, 45, 97, 110, 100, 45, 110, 101, 120, 116], false⟩ /- newline-and-next -/,
  ⟨[110, 111, 45, 111, 112], false⟩ /- no-op -/,
  ⟨[117, 112, 45, 104, 105, 115, 116, 111, 114, 121], false⟩ /- up-history -/,
  ⟨[112, 114, 101, 118, 45, 104, 105, 115, 116, 45, 119, 111, 114, 100], false⟩ /- prev-hist-word -/,
  ⟨[115, 101, 97, 114, 99, 104, 45, 99, 104, 97, 114, 97, 99, 116, 101, 114, 45, 102, 111, 114, 119, 97, 114, 100], false⟩ /- search-character-forward -/,
  ⟨[115, 101, 97, 114, 99, 104, 45, 99, 104, 97, 114, 97, 99, 116, 101, 114, 45, 98, 97, 99, 107, 119, 97, 114, 100], false⟩ /- search-character-backward -/,
  ⟨[115, 101, 97, 114, 99, 104, 45, 104, 105, 115, 116, 111, 114, 121], false⟩ /- search-history -/,
  ⟨[115, 101, 116, 45, 109, 97, 114, 107, 45, 99, 111, 109, 109, 97, 110, 100], false⟩ /- set-mark-command -/,
  ⟨[116, 114, 97, 110, 115, 112, 111, 115, 101, 45, 99, 104, 97, 114, 115], false⟩ /- transpose-chars -/,
  ⟨[101, 120, 99, 104, 97, 110, 103, 101, 45, 112, 111, 105, 110, 116, 45, 97, 110, 100, 45, 109, 97, 114, 107], false⟩ /- exchange-point-and-mark -/,
  ⟨[121, 97, 110, 107], false⟩ /- yank -/,
  ⟨[99, 111, 109, 112, 108, 101, 116, 101, 45, 108, 105, 115, 116], false⟩ /- complete-list -/,
  ⟨[101, 120, 112, 97, 110, 100, 45, 102, 105, 108, 101], false⟩ /- expand-file -/,
  ⟨[99, 97, 112, 105, 116, 97, 108, 105, 122, 101, 45, 119, 111, 114, 100], false⟩ /- capitalize-word -/,
  ⟨[100, 111, 119, 110, 99, 97, 115, 101, 45, 119, 111, 114, 100], false⟩ /- downcase-word -/,
  ⟨[117, 112, 99, 97, 115, 101, 45, 119, 111, 114, 100], false⟩ /- upcase-word -/,
  ⟨[115, 101, 116, 45, 97, 114, 103], true⟩ /- set-arg -/,
  ⟨[99, 111, 109, 109, 101, 110, 116], false⟩ /- comment -/]

/-- The bindings made by x_init_emacs (emacs.c:1478-1581). -/
def defaults : List (Nat × List Nat) := [
  (0, [7]) /- x_abort -/,
  (26, [2]) /- x_mv_back -/,
  (26, [24, 4]) /- x_mv_back -/,
  (28, [27, 98]) /- x_mv_bword -/,
  (1, [27, 60]) /- x_beg_hist -/,
  (27, [1]) /- x_mv_begin -/,
  (47, [27, 67]) /- x_fold_capitalize -/,
  (47, [27, 99]) /- x_fold_capitalize -/,
  (51, [27, 35]) /- x_comment -/,
  (5, [27, 27]) /- x_complete -/,
  (3, [24, 27]) /- x_comp_comm -/,
  (4, [27, 24]) /- x_comp_file -/,
  (45, [9]) /- x_comp_list -/,
  (45, [27, 61]) /- x_comp_list -/,
  (6, [127]) /- x_del_back -/,
  (6, [8]) /- x_del_back -/,
  (8, [27, 91, 51, 126]) /- x_del_char -/,
  (7, [23]) /- x_del_bword -/,
  (7, [27, 127]) /- x_del_bword -/,
  (7, [27, 8]) /- x_del_bword -/,
  (7, [27, 104]) /- x_del_bword -/,
  (9, [27, 100]) /- x_del_fword -/,
  (33, [14]) /- x_next_com -/,
  (33, [24, 66]) /- x_next_com -/,
  (48, [27, 76]) /- x_fold_lower -/,
  (48, [27, 108]) /- x_fold_lower -/,
  (12, [27, 62]) /- x_end_hist -/,
  (29, [5]) /- x_mv_end -/,
  (13, [31]) /- x_end_of_text -/,
  (15, [4]) /- x_eot_del -/,
  (43, [24, 24]) /- x_xchg_point_mark -/,
  (46, [27, 42]) /- x_expand -/,
  (30, [6]) /- x_mv_forw -/,
  (30, [24, 67]) /- x_mv_forw -/,
  (31, [27, 102]) /- x_mv_fword -/,
  (17, [27, 103]) /- x_goto_hist -/,
  (20, [11]) /- x_kill -/,
  (14, [27, 63]) /- x_enumerate -/,
  (22, [24, 63]) /- x_list_comm -/,
  (23, [24, 25]) /- x_list_file -/,
  (32, [10]) /- x_newline -/,
  (32, [13]) /- x_newline -/,
  (34, [15]) /- x_nl_next_com -/,
  (37, [27, 46]) /- x_prev_histword -/,
  (37, [27, 95]) /- x_prev_histword -/,
  (24, [30]) /- x_literal -/,
  (2, [12]) /- x_clear_screen -/,
  (39, [27, 29]) /- x_search_char_back -/,
  (38, [29]) /- x_search_char_forw -/,
  (40, [18]) /- x_search_hist -/,
  (41, [27, 32]) /- x_set_mark -/,
  (42, [20]) /- x_transpose -/,
  (36, [16]) /- x_prev_com -/,
  (36, [24, 65]) /- x_prev_com -/,
  (49, [27, 85]) /- x_fold_upper -/,
  (49, [27, 117]) /- x_fold_upper -/,
  (24, [22]) /- x_literal -/,
  (44, [25]) /- x_yank -/,
  (25, [27, 121]) /- x_meta_yank -/,
  (36, [27, 91, 65]) /- x_prev_com -/,
  (33, [27, 91, 66]) /- x_next_com -/,
  (30, [27, 91, 67]) /- x_mv_forw -/,
  (26, [27, 91, 68]) /- x_mv_back -/,
  (36, [27, 79, 65]) /- x_prev_com -/,
  (33, [27, 79, 66]) /- x_next_com -/,
  (30, [27, 79, 67]) /- x_mv_forw -/,
  (26, [27, 79, 68]) /- x_mv_back -/,
  (27, [27, 91, 72]) /- x_mv_begin -/,
  (29, [27, 91, 70]) /- x_mv_end -/,
  (27, [27, 79, 72]) /- x_mv_begin -/,
  (29, [27, 79, 70]) /- x_mv_end -/,
  (27, [27, 91, 49, 126]) /- x_mv_begin -/,
  (29, [27, 91, 52, 126]) /- x_mv_end -/,
  (27, [27, 91, 55, 126]) /- x_mv_begin -/,
  (29, [27, 91, 56, 126]) /- x_mv_end -/,
  (50, [27, 48]) /- x_set_arg -/,
  (50, [27, 49]) /- x_set_arg -/,
  (50, [27, 50]) /- x_set_arg -/,
  (50, [27, 51]) /- x_set_arg -/,
  (50, [27, 52]) /- x_set_arg -/,
  (50, [27, 53]) /- x_set_arg -/,
  (50, [27, 54]) /- x_set_arg -/,
  (50, [27, 55]) /- x_set_arg -/,
  (50, [27, 56]) /- x_set_arg -/,
  (50, [27, 57]) /- x_set_arg -/,
  (29, [27, 91, 49, 59, 53, 65]) /- x_mv_end -/,
  (27, [27, 91, 49, 59, 53, 66]) /- x_mv_begin -/,
  (31, [27, 91, 49, 59, 53, 67]) /- x_mv_fword -/,
  (28, [27, 91, 49, 59, 53, 68]) /- x_mv_bword -/]

/-- x_init_emacs (emacs.c:1469-1582). -/
def initMap : Keymap := defaults.foldl (fun m r => (addString m r.1 none r.2).2) ⟨[], 0⟩

/-- The functions of the reader in `ftab`. -/
def fns : Fns := ⟨18, 24, 50⟩

/-- kb_add with the characters of a terminal (emacs.c:1350-1369): a 0 ends the sequence. -/
def addKey (m : Keymap) (fn : Nat) (s : List Nat) : Keymap := (addString m fn none (cstr s)).2

/-- A character of X_chars, which is -1 when the terminal has none (emacs.c:1588, 1592, ...). -/
def whenSet (c : Option Nat) (f : Nat → Keymap → Keymap) (m : Keymap) : Keymap :=
  match c with
  | none => m
  | some c => f c m

/-- x_emacs_keys (emacs.c:1584-1602). -/
def ttyKeys (erase kill werase intr quit : Option Nat) (m : Keymap) : Keymap :=
  whenSet quit (fun c m => addKey m 35 [c]) <|
  whenSet intr (fun c m => addKey m 0 [c]) <|
  whenSet werase (fun c m => addKey m 7 [c]) <|
  whenSet kill (fun c m => addKey m 10 [c]) <|
  whenSet erase (fun c m => addKey (addKey m 6 [c]) 7 [27, c]) m

end Ksh.Keys
