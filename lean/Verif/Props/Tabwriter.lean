import Verif.Model.Tabwriter
import Verif.Spec.Tabwriter
import Verif.Props.Quote
import Verif.Props.RenderText
/-! # C88: tables line up -/
namespace Verif.Tw
open Rd (Each)

/-! ## Characters -/

theorem runeCount_reading {s : Bytes} {l : List (Char ⊕ UInt8)} (h : Qt.Reading s l) : runeCount s = l.length := by
  induction h with
  | nil => rw [runeCount]; rfl
  | @char c s l _ ih =>
    obtain ⟨b, t, e, hf⟩ := Qt.front_char c s
    rw [e, List.cons_append, runeCount, hf]
    dsimp only
    rw [Nat.add_sub_cancel, List.drop_left, ih]; rfl
  | @bad b s l hb _ ih =>
    rw [runeCount, Qt.bad_ge hb]
    dsimp only
    rw [List.drop_zero, ih]; rfl

/-- **C88**: what is counted are characters, and bytes that are not part of one. -/
theorem C88_chars (t : Bytes) (n : Nat) : Chars t n ↔ n = runeCount t := by
  constructor
  · rintro ⟨l, h, rfl⟩; exact (runeCount_reading h).symm
  · rintro rfl
    obtain ⟨l, h⟩ := Qt.reading t
    exact ⟨l, h, (runeCount_reading h).symm⟩

/-! ## Lines of the same length -/

/-- The widths of the columns from `k` on, `m` of them. -/
def widths (ls : List Line) (k m : Nat) : List Int := (List.range' k m).map fun j => blockWidth j ls

theorem takeWhile_all {α : Type} {p : α → Bool} : ∀ {l : List α}, (∀ x ∈ l, p x = true) → l.takeWhile p = l
  | [], _ => rfl
  | x :: l, h => by rw [List.takeWhile_cons, if_pos (h x List.mem_cons_self), takeWhile_all fun y hy => h y (List.mem_cons_of_mem _ hy)]

theorem dropWhile_all {α : Type} {p : α → Bool} : ∀ {l : List α}, (∀ x ∈ l, p x = true) → l.dropWhile p = []
  | [], _ => rfl
  | x :: l, h => by rw [List.dropWhile_cons, if_pos (h x List.mem_cons_self), dropWhile_all fun y hy => h y (List.mem_cons_of_mem _ hy)]

theorem format_flat (right : Bool) (ws : List Int) : ∀ ls : List Line, (∀ l ∈ ls, hasCell ws.length l = false) → format right ws ls = ls.flatMap (writeLine right ws)
  | [], _ => by rw [format]; rfl
  | l :: ls, h => by
    rw [format, dif_neg (by rw [h l List.mem_cons_self]; decide), List.flatMap_cons, format_flat right ws ls fun x hx => h x (List.mem_cons_of_mem _ hx)]

theorem format_uniform (right : Bool) (n : Nat) : ∀ (m : Nat) (ws : List Int) (ls : List Line), ws.length + m = n → (∀ l ∈ ls, l.cells.length = n + 1) →
    format right ws ls = ls.flatMap (writeLine right (ws ++ widths ls ws.length m))
  | 0, ws, ls, hm, h => by
    rw [format_flat right ws ls fun l hl => by simp [hasCell, h l hl]; omega]
    simp [widths]
  | m + 1, ws, [], _, _ => by rw [format]; rfl
  | m + 1, ws, l :: ls, hm, h => by
    have hp : ∀ x ∈ l :: ls, hasCell ws.length x = true := fun x hx => by simp [hasCell, h x hx]; omega
    rw [format, dif_pos (hp l List.mem_cons_self), takeWhile_all hp, dropWhile_all hp]
    rw [show format right ws [] = [] by rw [format], List.append_nil]
    rw [format_uniform right n m _ (l :: ls) (by simp; omega) h]
    simp [widths, List.range'_succ]

theorem format_snoc (right : Bool) (ws : List Int) (ls : List Line) (z : Line) (h : ∀ x ∈ ls, hasCell ws.length x = true) (hz : hasCell ws.length z = false) :
    format right ws (ls ++ [z]) = format right ws ls ++ writeLine right ws z := by
  have hz' : format right ws [z] = writeLine right ws z := by
    rw [format_flat right ws [z] (by simpa using hz)]; simp
  cases ls with
  | nil => rw [List.nil_append, hz', show format right ws [] = [] by rw [format]]; rfl
  | cons l ls =>
    have e1 : (l :: (ls ++ [z])).takeWhile (hasCell ws.length) = l :: ls := by
      rw [show l :: (ls ++ [z]) = (l :: ls) ++ [z] from rfl, List.takeWhile_append_of_pos h]
      simp [hz]
    have e2 : (l :: (ls ++ [z])).dropWhile (hasCell ws.length) = [z] := by
      rw [show l :: (ls ++ [z]) = (l :: ls) ++ [z] from rfl, List.dropWhile_append_of_pos h]
      simp [hz]
    have e3 : format right ws (l :: ls) = format right (ws ++ [blockWidth ws.length (l :: ls)]) (l :: ls) := by
      conv => lhs; rw [format]
      rw [dif_pos (h l List.mem_cons_self), takeWhile_all h, dropWhile_all h, show format right ws [] = [] by rw [format], List.append_nil]
    rw [List.cons_append, format, dif_pos (h l List.mem_cons_self), e1, e2, hz', e3]

/-! ## Widths -/

theorem fold_max (f : Line → Option Cell) : ∀ (ls : List Line) (a : Int), a ≤ ls.foldl (fun w l => match f l with
      | some c => if w < c.width + 1 then c.width + 1 else w
      | none => w) a ∧ (∀ l ∈ ls, ∀ c, f l = some c → c.width + 1 ≤ ls.foldl (fun w l => match f l with
      | some c => if w < c.width + 1 then c.width + 1 else w
      | none => w) a) ∧ (ls.foldl (fun w l => match f l with
      | some c => if w < c.width + 1 then c.width + 1 else w
      | none => w) a = a ∨ ∃ l ∈ ls, ∃ c, f l = some c ∧ c.width + 1 = ls.foldl (fun w l => match f l with
      | some c => if w < c.width + 1 then c.width + 1 else w
      | none => w) a)
  | [], a => ⟨by simp, by simp, .inl rfl⟩
  | l :: ls, a => by
    rw [List.foldl_cons]
    cases hl : f l with
    | none =>
      dsimp only
      obtain ⟨h1, h2, h3⟩ := fold_max f ls a
      refine ⟨h1, fun x hx c hc => ?_, ?_⟩
      · rcases List.mem_cons.1 hx with rfl | hx
        · rw [hl] at hc; cases hc
        · exact h2 x hx c hc
      · rcases h3 with h3 | ⟨x, hx, h⟩
        · exact .inl h3
        · exact .inr ⟨x, List.mem_cons_of_mem _ hx, h⟩
    | some d =>
      dsimp only
      by_cases hlt : a < d.width + 1
      · rw [if_pos hlt]
        obtain ⟨h1, h2, h3⟩ := fold_max f ls (d.width + 1)
        refine ⟨by omega, fun x hx c hc => ?_, ?_⟩
        · rcases List.mem_cons.1 hx with rfl | hx
          · rw [hl] at hc; cases hc; exact h1
          · exact h2 x hx c hc
        · rcases h3 with h3 | ⟨x, hx, h⟩
          · exact .inr ⟨l, List.mem_cons_self, d, hl, h3.symm⟩
          · exact .inr ⟨x, List.mem_cons_of_mem _ hx, h⟩
      · rw [if_neg hlt]
        obtain ⟨h1, h2, h3⟩ := fold_max f ls a
        refine ⟨h1, fun x hx c hc => ?_, ?_⟩
        · rcases List.mem_cons.1 hx with rfl | hx
          · rw [hl] at hc; cases hc; omega
          · exact h2 x hx c hc
        · rcases h3 with h3 | ⟨x, hx, h⟩
          · exact .inl h3
          · exact .inr ⟨x, List.mem_cons_of_mem _ hx, h⟩

theorem blockWidth_spec (j : Nat) (ls : List Line) : 0 ≤ blockWidth j ls ∧ (∀ l ∈ ls, ∀ c, l.cells[j]? = some c → c.width + 1 ≤ blockWidth j ls) ∧
    (blockWidth j ls = 0 ∨ ∃ l ∈ ls, ∃ c, l.cells[j]? = some c ∧ c.width + 1 = blockWidth j ls) := fold_max (fun l => l.cells[j]?) ls 0

/-! ## The cells of a row -/

/-- A cell that is ended by a tab. -/
def tabCell (c : Bytes) : Cell := ⟨c, runeCount c, true⟩

/-- The line of a row. -/
def Row.line (r : Row) : List Cell := r.cells.map tabCell ++ [⟨r.last, runeCount r.last, false⟩]

theorem run_clean (right : Bool) : ∀ (c : Bytes) (s : St), Clean c → s.esc = false → c.foldl (St.byte right) s = { s with text := s.text ++ c, seg := s.seg ++ c }
  | [], s, _, _ => by simp
  | b :: c, s, h, he => by
    have hb := h b List.mem_cons_self
    have e1 : St.byte right s b = s.append b := by
      unfold St.byte
      rw [if_pos he, if_neg (by simp [hb.1, hb.2.1, hb.2.2.1, hb.2.2.2.1]), if_neg hb.2.2.2.2]
    rw [List.foldl_cons, e1, run_clean right c (s.append b) (fun x hx => h x (List.mem_cons_of_mem _ hx)) he]
    simp [St.append]

/-- A cell begins. -/
structure St.Fresh (s : St) : Prop where
  text : s.text = []
  width : s.width = 0
  seg : s.seg = []
  esc : s.esc = false

theorem run_cell (right : Bool) (c : Bytes) (s : St) (h : Clean c) (hs : s.Fresh) : (c ++ [9]).foldl (St.byte right) s = { s with line := s.line ++ [tabCell c] } := by
  rw [List.foldl_append, run_clean right c s h hs.esc, List.foldl_cons, List.foldl_nil]
  unfold St.byte
  simp only
  rw [if_pos hs.esc, if_pos (by simp), if_neg (by decide)]
  obtain ⟨o, ls, l, t, w, sg, e⟩ := s
  obtain ⟨h1, h2, h3, h4⟩ := hs
  simp only at h1 h2 h3 h4
  subst h1 h2 h3 h4
  simp [St.updateWidth, St.terminateCell, tabCell]

theorem run_cells (right : Bool) : ∀ (cs : List Bytes) (s : St), (∀ c ∈ cs, Clean c) → s.Fresh →
    (cs.flatMap fun c => c ++ [9]).foldl (St.byte right) s = { s with line := s.line ++ cs.map tabCell }
  | [], s, _, _ => by simp
  | c :: cs, s, h, hs => by
    rw [List.flatMap_cons, List.foldl_append, run_cell right c s (h c List.mem_cons_self) hs,
      run_cells right cs { s with line := s.line ++ [tabCell c] } (fun x hx => h x (List.mem_cons_of_mem _ hx)) ⟨hs.text, hs.width, hs.seg, hs.esc⟩]
    simp

/-- The line end after a row with cells. -/
theorem run_row (right : Bool) (r : Row) (s : St) (hc : ∀ c ∈ r.cells, Clean c) (hl : Clean r.last) (hs : s.Fresh) (hne : s.line = []) (hn : r.cells ≠ []) :
    r.text.foldl (St.byte right) s = { s with lines := s.lines ++ [r.line] } := by
  show ((r.cells.flatMap fun c => c ++ [9]) ++ r.last ++ [10]).foldl (St.byte right) s = _
  rw [List.foldl_append, List.foldl_append, run_cells right r.cells s hc hs]
  rw [run_clean right r.last { s with line := s.line ++ r.cells.map tabCell } hl hs.esc, List.foldl_cons, List.foldl_nil]
  have hlen : 0 < r.cells.length := List.length_pos_iff.2 hn
  obtain ⟨o, ls, l, t, w, sg, e⟩ := s
  obtain ⟨h1, h2, h3, h4⟩ := hs
  simp only at h1 h2 h3 h4 hne
  subst h1 h2 h3 h4 hne
  unfold St.byte
  rw [if_pos rfl, if_pos (by simp)]
  dsimp only
  rw [if_pos (by simp), if_neg]
  · simp [St.updateWidth, St.terminateCell, St.addLine, Row.line]
  · simp [St.updateWidth, St.terminateCell]; exact hn

theorem flush_one (right : Bool) (o : Bytes) (c : Cell) : ({ out := o, lines := [[c]] } : St).flush right = { out := o ++ c.text ++ [10] } := by
  unfold St.flush St.finish
  rw [if_neg (by simp)]
  dsimp only
  rw [format_flat right [] _ (by intro l hl; simp at hl; rcases hl with rfl | rfl <;> simp [hasCell])]
  simp [writeLine, writeCells]

/-- A row without cells is printed at once. -/
theorem run_bare (right : Bool) (r : Row) (o : Bytes) (hl : Clean r.last) (hn : r.cells = []) :
    r.text.foldl (St.byte right) { out := o } = { out := o ++ r.last ++ [10] } := by
  show ((r.cells.flatMap fun c => c ++ [9]) ++ r.last ++ [10]).foldl (St.byte right) _ = _
  rw [hn, List.flatMap_nil, List.nil_append, List.foldl_append, run_clean right r.last _ hl rfl, List.foldl_cons, List.foldl_nil]
  unfold St.byte
  rw [if_pos rfl, if_pos (by simp)]
  dsimp only
  rw [if_pos (by simp), if_pos (by simp [St.updateWidth, St.terminateCell])]
  simp only [St.updateWidth, St.terminateCell, St.addLine, List.nil_append]
  exact flush_one right o _

theorem run_rows (right : Bool) : ∀ (rows : List Row) (s : St), (∀ r ∈ rows, (∀ c ∈ r.cells, Clean c) ∧ Clean r.last ∧ r.cells ≠ []) → s.Fresh → s.line = [] →
    (rows.flatMap Row.text).foldl (St.byte right) s = { s with lines := s.lines ++ rows.map Row.line }
  | [], s, _, _, _ => by simp
  | r :: rows, s, h, hs, hl => by
    have hr := h r List.mem_cons_self
    rw [List.flatMap_cons, List.foldl_append, run_row right r s hr.1 hr.2.1 hs hl hr.2.2,
      run_rows right rows { s with lines := s.lines ++ [r.line] } (fun x hx => h x (List.mem_cons_of_mem _ hx)) ⟨hs.text, hs.width, hs.seg, hs.esc⟩ hl]
    simp

theorem run_bares (right : Bool) : ∀ (rows : List Row) (o : Bytes), (∀ r ∈ rows, Clean r.last ∧ r.cells = []) →
    (rows.flatMap Row.text).foldl (St.byte right) { out := o } = { out := o ++ rows.flatMap fun r => r.last ++ [10] }
  | [], o, _ => by simp
  | r :: rows, o, h => by
    have hr := h r List.mem_cons_self
    rw [List.flatMap_cons, List.foldl_append, run_bare right r o hr.1 hr.2, run_bares right rows _ fun x hx => h x (List.mem_cons_of_mem _ hx)]
    simp

theorem row_length (r : Row) : r.line.length = r.cells.length + 1 := by simp [Row.line]

/-! ## The cells as they are printed -/

theorem writeCells_ends (right : Bool) : ∀ (cs : List Bytes) (ws : List Int) (last : Cell), ws.length = cs.length →
    ∃ ps : List Bytes, ps.length = cs.length ∧ (∀ (j : Nat) c p w, cs[j]? = some c → ps[j]? = some p → ws[j]? = some w →
      p = if right then padding (runeCount c) w ++ c else c ++ padding (runeCount c) w) ∧
      writeCells right ws (cs.map tabCell ++ [last]) = ps.flatten ++ last.text
  | [], [], last, _ => ⟨[], rfl, by simp, by simp [writeCells]⟩
  | [], _ :: _, _, h => by simp at h
  | _ :: _, [], _, h => by simp at h
  | c :: cs, w :: ws, last, h => by
    obtain ⟨ps, h1, h2, h3⟩ := writeCells_ends right cs ws last (by simpa using h)
    refine ⟨(if right then padding (runeCount c) w ++ c else c ++ padding (runeCount c) w) :: ps, by simp [h1], ?_, ?_⟩
    · intro j c' p w' hc hp hw
      cases j with
      | zero => simp at hc hp hw; subst hc hw; exact hp.symm
      | succ j => exact h2 j c' p w' (by simpa using hc) (by simpa using hp) (by simpa using hw)
    · rw [List.map_cons, List.cons_append, writeCells, h3, List.flatten_cons, List.append_assoc]
      congr 1
      by_cases he : c = []
      · subst he; cases right <;> simp [tabCell]
      · rw [if_neg (show ¬ (tabCell c).text = [] from he)]; rfl

/-- **C88**: a table whose rows have the same number of cells, and whose texts are clean, is laid out: one line for each row, in order, every cell filled up with spaces
to the width of the widest cell of its column and one more, counted in characters, so that the columns line up; and nothing else. -/
theorem C88_table (right : Bool) (n : Nat) (rows : List Row) (hn : ∀ r ∈ rows, r.cells.length = n) (hc : ∀ r ∈ rows, (∀ c ∈ r.cells, Clean c) ∧ Clean r.last) :
    Laid right rows (tab right (rows.flatMap Row.text)) := by
  by_cases h0 : n = 0
  · subst h0
    have hz : ∀ r ∈ rows, r.cells = [] := fun r hr => List.length_eq_zero_iff.1 (hn r hr)
    refine ⟨fun _ => 0, fun r hr j c m h => by rw [hz r hr] at h; simp at h, fun j ⟨r, hr, hj⟩ => by rw [hn r hr] at hj; omega,
      rows.map fun r => r.last ++ [10], ⟨by simp, fun i r t h1 h2 => ?_⟩, ?_⟩
    · rw [List.getElem?_map, h1] at h2
      cases h2
      exact ⟨[], by rw [hz r (List.mem_of_getElem? h1)], by simp, rfl⟩
    · unfold tab
      rw [show ({} : St) = { out := [] } from rfl, run_bares right rows [] fun r hr => ⟨(hc r hr).2, hz r hr⟩]
      unfold St.flush St.finish
      rw [if_neg (by simp)]
      dsimp only
      rw [format_flat right [] _ (by intro l hl; simp at hl; subst hl; simp [hasCell])]
      simp [writeLine, writeCells, List.flatMap_def]
  have hne : ∀ r ∈ rows, r.cells ≠ [] := fun r hr e => h0 (by rw [← hn r hr, e]; rfl)
  let ls : List Line := rows.map fun r => ⟨r.line, true⟩
  have hls : ∀ l ∈ ls, l.cells.length = n + 1 := by
    intro l hl
    obtain ⟨r, hr, rfl⟩ := List.mem_map.1 hl
    rw [row_length, hn r hr]
  have hcell : ∀ r ∈ rows, ∀ (j : Nat) c, r.cells[j]? = some c → r.line[j]? = some (tabCell c) := by
    intro r hr j c h
    obtain ⟨hj, -⟩ := List.getElem?_eq_some_iff.1 h
    rw [Row.line, List.getElem?_append_left (by simpa using hj), List.getElem?_map, h]; rfl
  have hw : ∀ r ∈ rows, ∀ (j : Nat) c, r.cells[j]? = some c → (runeCount c : Int) + 1 ≤ blockWidth j ls := fun r hr j c h =>
    (blockWidth_spec j ls).2.1 ⟨r.line, true⟩ (List.mem_map.2 ⟨r, hr, rfl⟩) (tabCell c) (hcell r hr j c h)
  refine ⟨fun j => (blockWidth j ls).toNat, ?_, ?_, ?_⟩
  · intro r hr j c m h hm
    have := hw r hr j c h
    rw [(C88_chars c m).1 hm]
    show runeCount c + 1 ≤ (blockWidth j ls).toNat
    omega
  · rintro j ⟨r, hr, hj⟩
    have h1 := hw r hr j _ (List.getElem?_eq_getElem hj)
    rcases (blockWidth_spec j ls).2.2 with h2 | ⟨l, hl, c, h2, h3⟩
    · omega
    · obtain ⟨r', hr', rfl⟩ := List.mem_map.1 hl
      have hj' : j < r'.cells.length := by rw [hn r' hr', ← hn r hr]; exact hj
      have h4 := hcell r' hr' j _ (List.getElem?_eq_getElem hj')
      dsimp only at h2
      rw [h4] at h2
      cases h2
      refine ⟨r', hr', _, _, List.getElem?_eq_getElem hj', (C88_chars _ _).2 rfl, ?_⟩
      simp only [tabCell] at h3
      show _ = (blockWidth j ls).toNat
      omega
  · have hrun : tab right (rows.flatMap Row.text) = ls.flatMap (writeLine right (widths ls 0 n)) := by
      unfold tab
      rw [run_rows right rows {} (fun r hr => ⟨(hc r hr).1, (hc r hr).2, hne r hr⟩) ⟨rfl, rfl, rfl, rfl⟩ rfl]
      unfold St.flush St.finish
      rw [if_neg (by simp)]
      dsimp only
      rw [List.nil_append, List.nil_append, List.map_map]
      show format right [] (ls ++ [⟨[], false⟩]) = _
      rw [format_snoc right [] ls ⟨[], false⟩ (fun x hx => by simp [hasCell, hls x hx]; omega) rfl, format_uniform right n n [] ls (by simp) hls]
      simp [writeLine, writeCells]
    refine ⟨rows.map fun r => writeLine right (widths ls 0 n) ⟨r.line, true⟩, ⟨by simp, fun i r t h1 h2 => ?_⟩, ?_⟩
    · rw [List.getElem?_map, h1] at h2
      cases h2
      have hr := List.mem_of_getElem? h1
      obtain ⟨ps, p1, p2, p3⟩ := writeCells_ends right r.cells (widths ls 0 n) ⟨r.last, runeCount r.last, false⟩ (by simp [widths, hn r hr])
      refine ⟨ps, p1, fun j c p hj hp => ?_, ?_⟩
      · have hjl := (List.getElem?_eq_some_iff.1 hj).1
        rw [hn r hr] at hjl
        have hwj : (widths ls 0 n)[j]? = some (blockWidth j ls) := by
          simp [widths, hjl]
        have := hw r hr j c hj
        refine ⟨runeCount c, ((blockWidth j ls) - runeCount c).toNat, (C88_chars _ _).2 rfl, by (show _ = (blockWidth j ls).toNat); omega, ?_⟩
        rw [p2 j c p _ hj hp hwj]
        rfl
      · show writeCells right (widths ls 0 n) r.line ++ [10] = _
        rw [Row.line, p3]; rfl
    · rw [hrun, List.flatMap_def, List.map_map]; rfl

/-! ## Whatever is written -/

/-- The text of a line. -/
def textOf (l : List Cell) : Bytes := l.flatMap Cell.text

theorem ink_append (a b : Bytes) : ink (a ++ b) = ink a ++ ink b := List.filter_append ..

theorem ink_padding (a b : Int) : ink (padding a b) = [] := by
  unfold ink padding
  rw [List.filter_eq_nil_iff]
  intro x hx
  rw [List.eq_of_mem_replicate hx]; decide

theorem ink_cells (right : Bool) : ∀ (ws : List Int) (cs : List Cell), ink (writeCells right ws cs) = ink (textOf cs)
  | _, [] => by simp [writeCells, textOf]
  | [], c :: cs => by
    rw [writeCells, ink_append, ink_cells right [] cs, ← ink_append]; rfl
  | w :: ws, c :: cs => by
    rw [writeCells, ink_append, ink_cells right ws cs, show textOf (c :: cs) = c.text ++ textOf cs from rfl, ink_append]
    congr 1
    split
    · rename_i h; rw [h, ink_padding]; rfl
    · split <;> simp [ink_append, ink_padding]

theorem ink_line (right : Bool) (ws : List Int) (l : Line) : ink (writeLine right ws l) = ink (textOf l.cells) := by
  rw [writeLine, ink_append, ink_cells]
  split <;> simp [ink]

/-- The texts of lines, one after the other. -/
def textsOf (ls : List Line) : Bytes := ls.flatMap fun l => textOf l.cells

theorem ink_format (right : Bool) (ws : List Int) (ls : List Line) : ink (format right ws ls) = ink (textsOf ls) := by
  induction ws, ls using format.induct with
  | case1 ws => rw [format]; rfl
  | case2 ws l ls h ih1 ih2 =>
    rw [format, dif_pos h, ink_append, ih1, ih2, ← ink_append, textsOf, textsOf, ← List.flatMap_append, List.takeWhile_append_dropWhile]; rfl
  | case3 ws l ls h ih =>
    rw [format, dif_neg h, ink_append, ink_line, ih, ← ink_append]; rfl

/-- All text that a writer holds or has printed. -/
def St.all (s : St) : Bytes := s.out ++ (s.lines.flatMap textOf ++ (textOf s.line ++ s.text))

theorem ink_all (s : St) : ink s.all = ink s.out ++ (ink (s.lines.flatMap textOf) ++ (ink (textOf s.line) ++ ink s.text)) := by
  rw [St.all, ink_append, ink_append, ink_append]

theorem finish_all (s : St) : s.finish.all = s.all ∧ s.finish.text = [] ∧ s.finish.out = s.out := by
  unfold St.finish
  by_cases h : s.text = []
  · rw [if_neg (by simp [h])]; exact ⟨rfl, h, rfl⟩
  · rw [if_pos h]
    cases s.esc <;> simp [St.terminateCell, St.all, textOf, St.endEscape, St.updateWidth]

theorem ink_flush (right : Bool) (s : St) : ink (s.flush right).all = ink s.all := by
  obtain ⟨h1, h2, h3⟩ := finish_all s
  have e : ink (format right [] (s.finish.lines.map (fun l => ⟨l, true⟩) ++ [⟨s.finish.line, false⟩])) = ink (s.finish.lines.flatMap textOf) ++ ink (textOf s.finish.line) := by
    rw [ink_format, ← ink_append]; simp [textsOf, List.flatMap_map]
  rw [← h1, ink_all, ink_all, h2, h3]
  simp only [St.flush]
  rw [ink_append, e]
  simp [ink, textOf]

theorem ink_sep {b : UInt8} (h : b = 9 ∨ b = 11 ∨ b = 10 ∨ b = 12) : ink [b] = [] := by rcases h with rfl | rfl | rfl | rfl <;> rfl

theorem ink_byte (right : Bool) (s : St) (b : UInt8) : ink (s.byte right b).all = ink (s.all ++ [b]) := by
  have ha : ∀ s : St, (s.append b).all = s.all ++ [b] := fun s => by simp [St.all, St.append]
  have hu : s.updateWidth.all = s.all := rfl
  have ht : ∀ (s : St) (t : Bool), (s.terminateCell t).all = s.all := fun s t => by simp [St.all, St.terminateCell, textOf]
  have hl : ∀ (s : St), s.text = [] → s.addLine.all = s.all := fun s h => by simp [St.all, St.addLine, textOf, h]
  unfold St.byte
  split
  · split
    · rename_i h
      rw [ink_append, ink_sep h, List.append_nil]
      dsimp only
      split
      · split
        · rw [ink_flush, hl _ rfl, ht, hu]
        · rw [hl _ rfl, ht, hu]
      · rw [ht, hu]
    · split
      · show ink (s.updateWidth.append b).all = _
        rw [ha]; rfl
      · rw [ha]
  · split
    · show ink (s.append b).all = _
      rw [ha]
    · rw [ha]

theorem ink_run (right : Bool) : ∀ (t : Bytes) (s : St), ink (t.foldl (St.byte right) s).all = ink (s.all ++ t)
  | [], s => by simp
  | b :: t, s => by
    rw [List.foldl_cons, ink_run right t, ink_append, ink_byte, ← ink_append]; simp

/-- **C88**: whatever is written to a table, nothing is lost, added or put in another order, but for spaces, tabs and line ends. -/
theorem C88_ink (right : Bool) (t : Bytes) : ink (tab right t) = ink t := by
  have h1 := ink_flush right (t.foldl (St.byte right) {})
  rw [ink_run right t {}] at h1
  have h2 : ((t.foldl (St.byte right) {}).flush right).all = tab right t := by simp [tab, St.all, St.flush, textOf]
  rw [h2] at h1
  exact h1

/-! ## Lines -/

/-- No newline in the cells. -/
def NoNl (l : List Cell) : Prop := ∀ c ∈ l, (10 : UInt8) ∉ c.text

theorem count_padding (a b : Int) : (padding a b).count 10 = 0 := by
  unfold padding
  rw [List.count_replicate]; rfl

theorem count_cells (right : Bool) : ∀ (ws : List Int) (cs : List Cell), NoNl cs → (writeCells right ws cs).count 10 = 0
  | _, [], _ => by simp [writeCells]
  | [], c :: cs, h => by
    rw [writeCells, List.count_append, List.count_eq_zero_of_not_mem (h c List.mem_cons_self), count_cells right [] cs fun x hx => h x (List.mem_cons_of_mem _ hx)]
  | w :: ws, c :: cs, h => by
    have h1 := List.count_eq_zero_of_not_mem (h c List.mem_cons_self)
    rw [writeCells, List.count_append, count_cells right ws cs fun x hx => h x (List.mem_cons_of_mem _ hx)]
    split
    · rw [count_padding]
    · split <;> rw [List.count_append, count_padding, h1]

theorem count_line (right : Bool) (ws : List Int) (l : Line) (h : NoNl l.cells) : (writeLine right ws l).count 10 = if l.nl then 1 else 0 := by
  rw [writeLine, List.count_append, count_cells right ws _ h]
  split <;> rfl

theorem count_format (right : Bool) (ws : List Int) (ls : List Line) (h : ∀ l ∈ ls, NoNl l.cells) : (format right ws ls).count 10 = (ls.filter Line.nl).length := by
  induction ws, ls using format.induct with
  | case1 ws => rw [format]; rfl
  | case2 ws l ls h' ih1 ih2 =>
    rw [format, dif_pos h', List.count_append, ih1 fun x hx => h x ((List.takeWhile_sublist _).subset hx),
      ih2 fun x hx => h x ((List.dropWhile_sublist _).subset hx), ← List.length_append, ← List.filter_append, List.takeWhile_append_dropWhile]
  | case3 ws l ls h' ih =>
    rw [format, dif_neg h', List.count_append, count_line right ws l (h l List.mem_cons_self), ih fun x hx => h x (List.mem_cons_of_mem _ hx), List.filter_cons]
    split <;> simp; omega

/-- What holds while text without the byte 0xFF is written. -/
structure St.Plain (s : St) : Prop where
  esc : s.esc = false
  lines : ∀ l ∈ s.lines, NoNl l
  line : NoNl s.line
  text : (10 : UInt8) ∉ s.text

theorem plain_flush (right : Bool) (s : St) (h : s.Plain) : (s.flush right).Plain ∧ (s.flush right).out.count 10 = s.out.count 10 + s.lines.length := by
  refine ⟨⟨rfl, by simp [St.flush], by simp [St.flush, NoNl], by simp [St.flush]⟩, ?_⟩
  have hf : s.finish.lines = s.lines ∧ NoNl s.finish.line := by
    unfold St.finish
    rw [h.esc]
    split
    · refine ⟨rfl, fun c hc => ?_⟩
      simp only [St.terminateCell, Bool.false_eq_true, if_false, List.mem_append, List.mem_singleton] at hc
      rcases hc with hc | rfl
      · exact h.line c hc
      · exact h.text
    · exact ⟨rfl, h.line⟩
  simp only [St.flush]
  rw [List.count_append, count_format, List.filter_append, List.filter_eq_self.2, hf.1]
  · simp
  · intro l hl
    obtain ⟨x, -, rfl⟩ := List.mem_map.1 hl
    rfl
  · intro l hl
    rcases List.mem_append.1 hl with hl | hl
    · obtain ⟨x, hx, rfl⟩ := List.mem_map.1 hl
      rw [hf.1] at hx
      exact h.lines x hx
    · simp at hl; subst hl; exact hf.2

theorem plain_byte (right : Bool) (s : St) (b : UInt8) (h : s.Plain) (hb : b ≠ 255) : (s.byte right b).Plain ∧
    (s.byte right b).out.count 10 + (s.byte right b).lines.length = s.out.count 10 + s.lines.length + (if b = 10 ∨ b = 12 then 1 else 0) := by
  have ht : ∀ t, (s.updateWidth.terminateCell t).Plain := fun t => ⟨h.esc, h.lines, fun c hc => by
    simp only [St.terminateCell, St.updateWidth, List.mem_append, List.mem_singleton] at hc
    rcases hc with hc | rfl
    · exact h.line c hc
    · exact h.text, by simp [St.terminateCell]⟩
  have hl : ∀ s : St, s.Plain → s.addLine.Plain := fun s h => ⟨h.esc, fun l hl => by
    simp only [St.addLine, List.mem_append, List.mem_singleton] at hl
    rcases hl with hl | rfl
    · exact h.lines l hl
    · exact h.line, by simp [St.addLine, NoNl], h.text⟩
  unfold St.byte
  rw [if_pos h.esc]
  split
  · dsimp only
    split
    · rename_i hsep
      split
      · obtain ⟨h1, h2⟩ := plain_flush right _ (hl _ (ht (b = 9)))
        refine ⟨h1, ?_⟩
        rw [h2]
        show s.out.count 10 + (s.lines ++ [_]).length + 0 = _
        simp; omega
      · refine ⟨hl _ (ht _), ?_⟩
        show s.out.count 10 + (s.lines ++ [_]).length = _
        simp; omega
    · exact ⟨ht _, rfl⟩
  · rename_i hsep
    try rw [if_neg hb]
    refine ⟨⟨h.esc, h.lines, h.line, ?_⟩, ?_⟩
    · simp only [St.append, List.mem_append, List.mem_singleton, not_or]
      exact ⟨h.text, fun e => hsep (.inr (.inr (.inl e.symm)))⟩
    · rw [if_neg (fun e => hsep (by rcases e with e | e <;> simp [e]))]; rfl

theorem plain_run (right : Bool) : ∀ (t : Bytes) (s : St), s.Plain → (255 : UInt8) ∉ t → (t.foldl (St.byte right) s).Plain ∧
    (t.foldl (St.byte right) s).out.count 10 + (t.foldl (St.byte right) s).lines.length = s.out.count 10 + s.lines.length + (t.count 10 + t.count 12)
  | [], s, h, _ => ⟨h, by simp⟩
  | b :: t, s, h, hb => by
    simp only [List.mem_cons, not_or] at hb
    obtain ⟨h1, h2⟩ := plain_byte right s b h fun e => hb.1 e.symm
    obtain ⟨h3, h4⟩ := plain_run right t (s.byte right b) h1 hb.2
    refine ⟨h3, ?_⟩
    rw [List.foldl_cons, h4, h2, List.count_cons, List.count_cons]
    by_cases e : b = 10
    · subst e; simp; omega
    · by_cases e' : b = 12
      · subst e'; simp; omega
      · simp [e, e']

/-- **C88**: the table has as many lines as were written: newlines and form feeds, if there is no byte 0xFF. -/
theorem C88_lines (right : Bool) (t : Bytes) (h : (255 : UInt8) ∉ t) : (tab right t).count 10 = t.count 10 + t.count 12 := by
  obtain ⟨h1, h2⟩ := plain_run right t {} ⟨rfl, by simp, by simp [NoNl], by simp⟩ h
  rw [tab, (plain_flush right _ h1).2, h2]; simp

end Verif.Tw
