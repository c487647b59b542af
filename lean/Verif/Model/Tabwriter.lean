import Verif.Model.Quote
import Verif.Model.Unit
/-!
# Tables: Go's `text/tabwriter`

The writers of internal/render/metrics.go:41, 62, 91, 111: `tabwriter.NewWriter(b, 0, 0, 1, ' ', flags)` with `flags` 0 or `AlignRight`. The code is Go's
`text/tabwriter/tabwriter.go`. Cells carry their text instead of a length and a position in a common buffer; what is printed at the `pos` of the code is the
text of the cell, since cells are printed in order. Flags that are not used (`FilterHTML`, `StripEscape`, `DiscardEmptyColumns`, `TabIndent`, `Debug`) are left out.
-/
namespace Verif.Tw
open Qt (front)

/-- `utf8.RuneCount`, for internal/render/metrics.go:41, 62, 91, 111. -/
def runeCount : Bytes → Nat
  | [] => 0
  | b :: s => runeCount (s.drop ((front b s).2 - 1)) + 1
termination_by s => s.length

/-- `cell` of `text/tabwriter`. -/
structure Cell where
  text : Bytes
  width : Int
  htab : Bool
deriving DecidableEq

/-- A line, and whether a newline follows it: `i+1 == len(b.lines)` of `writeLines` says which does not have one. -/
structure Line where
  cells : List Cell
  nl : Bool
deriving DecidableEq

/-- `writePadding`, with spaces. -/
def padding (textw cellw : Int) : Bytes := List.replicate (cellw - textw).toNat 32

/-- `writeLines` of `text/tabwriter`, for internal/render/metrics.go:41, 62, 91, 111: the cells of one line; `ws`: the widths that are known. -/
def writeCells (right : Bool) : List Int → List Cell → Bytes
  | _, [] => []
  | [], c :: cs => c.text ++ writeCells right [] cs
  | w :: ws, c :: cs =>
    (if c.text = [] then padding c.width w
      else if right then padding c.width w ++ c.text
      else c.text ++ padding c.width w) ++ writeCells right ws cs

/-- `writeLines` of `text/tabwriter`: one line. The text of an unfinished cell is empty whenever lines are printed. -/
def writeLine (right : Bool) (ws : List Int) (l : Line) : Bytes := writeCells right ws l.cells ++ if l.nl then [10] else []

/-- `format` of `text/tabwriter`: a cell of column `column` that is not the last one of its line exists. -/
def hasCell (column : Nat) (l : Line) : Bool := column + 1 < l.cells.length

/-- `format` of `text/tabwriter`: the width of a column block. `minwidth` 0, `padding` 1. -/
def blockWidth (column : Nat) (block : List Line) : Int :=
  block.foldl (fun w l => match l.cells[column]? with
    | some c => if w < c.width + 1 then c.width + 1 else w
    | none => w) 0

/-- A bound for the recursion of `format`. -/
def weight (column : Nat) (ls : List Line) : Nat := (ls.map fun l => 1 + (l.cells.length - column)).sum

theorem weight_span (p : Line → Bool) (column : Nat) (ls : List Line) : weight column ls = weight column (ls.takeWhile p) + weight column (ls.dropWhile p) := by
  conv => lhs; rw [← List.takeWhile_append_dropWhile (p := p) (l := ls)]
  simp only [weight, List.map_append, List.sum_append]

theorem weight_block (column : Nat) : ∀ ls : List Line, (∀ l ∈ ls, hasCell column l = true) → weight (column + 1) ls + ls.length ≤ weight column ls
  | [], _ => by simp [weight]
  | l :: ls, h => by
    have h1 := weight_block column ls fun x hx => h x (List.mem_cons_of_mem _ hx)
    have h2 := h l List.mem_cons_self
    simp only [hasCell, decide_eq_true_eq] at h2
    simp only [weight, List.map_cons, List.sum_cons, List.length_cons] at h1 ⊢
    omega

theorem mem_takeWhile_imp {α : Type} {p : α → Bool} : ∀ {l : List α} {x : α}, x ∈ l.takeWhile p → p x = true
  | y :: l, x, h => by
    simp only [List.takeWhile_cons] at h
    split at h
    · rcases List.mem_cons.1 h with rfl | h
      · assumption
      · exact mem_takeWhile_imp h
    · simp at h

/-- `format` of `text/tabwriter`, for internal/render/metrics.go:41, 62, 91, 111: lines without a cell in the column are printed with the widths known so far;
a run of lines with one is a block, whose width is found and whose other columns are then formatted. -/
def format (right : Bool) (ws : List Int) : List Line → Bytes
  | [] => []
  | l :: ls =>
    if h : hasCell ws.length l = true then
      format right (ws ++ [blockWidth ws.length ((l :: ls).takeWhile (hasCell ws.length))]) ((l :: ls).takeWhile (hasCell ws.length)) ++
        format right ws ((l :: ls).dropWhile (hasCell ws.length))
    else writeLine right ws l ++ format right ws ls
termination_by ls => weight ws.length ls
decreasing_by
  · have h1 := weight_span (hasCell ws.length) ws.length (l :: ls)
    have h2 := weight_block ws.length ((l :: ls).takeWhile (hasCell ws.length)) fun x hx => mem_takeWhile_imp hx
    have h3 : 0 < ((l :: ls).takeWhile (hasCell ws.length)).length := by rw [List.takeWhile_cons, if_pos h]; simp
    simp only [List.length_append, List.length_cons, List.length_nil, Nat.zero_add]
    omega
  · have h1 := weight_span (hasCell ws.length) ws.length (l :: ls)
    have h2 := weight_block ws.length ((l :: ls).takeWhile (hasCell ws.length)) fun x hx => mem_takeWhile_imp hx
    have h3 : 0 < ((l :: ls).takeWhile (hasCell ws.length)).length := by rw [List.takeWhile_cons, if_pos h]; simp
    omega
  · simp only [weight, List.map_cons, List.sum_cons]; omega

/-- `Writer` of `text/tabwriter`: what was printed, the lines that are complete, the cells of the last one, and the current cell: its text, its width up to
`pos`, the text from there on; `esc`: inside an escaped sequence. -/
structure St where
  out : Bytes := []
  lines : List (List Cell) := []
  line : List Cell := []
  text : Bytes := []
  width : Int := 0
  seg : Bytes := []
  esc : Bool := false

/-- `updateWidth` of `text/tabwriter`. -/
def St.updateWidth (s : St) : St := { s with width := s.width + runeCount s.seg, seg := [] }

/-- `append` of `text/tabwriter`, of one byte. -/
def St.append (s : St) (b : UInt8) : St := { s with text := s.text ++ [b], seg := s.seg ++ [b] }

/-- `terminateCell` of `text/tabwriter`. -/
def St.terminateCell (s : St) (htab : Bool) : St := { s with line := s.line ++ [⟨s.text, s.width, htab⟩], text := [], width := 0 }

/-- `addLine` of `text/tabwriter`. -/
def St.addLine (s : St) : St := { s with lines := s.lines ++ [s.line], line := [] }

/-- `endEscape` of `text/tabwriter`: the two escape characters are not counted. -/
def St.endEscape (s : St) : St := { s.updateWidth with width := s.updateWidth.width - 2, esc := false }

/-- `flushNoDefers` of `text/tabwriter`: an unfinished cell that is not empty. -/
def St.finish (s : St) : St := if s.text ≠ [] then (if s.esc then s.endEscape else s).terminateCell false else s

/-- `flushNoDefers` of `text/tabwriter`. -/
def St.flush (right : Bool) (s : St) : St :=
  { out := s.out ++ format right [] (s.finish.lines.map (fun l => ⟨l, true⟩) ++ [⟨s.finish.line, false⟩]) }

/-- `Write` of `text/tabwriter`, for internal/render/metrics.go:42-43, 63-66, 92-93, 112-118: one byte. -/
def St.byte (right : Bool) (s : St) (b : UInt8) : St :=
  if s.esc = false then
    if b = 9 ∨ b = 11 ∨ b = 10 ∨ b = 12 then
      let s := s.updateWidth.terminateCell (b = 9)
      if b = 10 ∨ b = 12 then
        if b = 12 ∨ s.line.length = 1 then s.addLine.flush right else s.addLine
      else s
    else if b = 255 then { s.updateWidth.append b with esc := true }
    else s.append b
  else if b = 255 then (s.append b).endEscape
  else s.append b

/-- internal/render/metrics.go:41-45, 62-68, 91-94, 111-119: a new writer to which `t` is written, flushed. -/
def tab (right : Bool) (t : Bytes) : Bytes := ((t.foldl (St.byte right) {}).flush right).out

/-- internal/render/metrics.go: the printing of numbers (internal/render/unit.go), strings and tables. `above`: the printable characters above U+00FF; `double`:
`%v` of a double; `E`: what internal/render/unit.go leaves open; `number`: the number of a point. -/
def out (above : Nat → Bool) (double : Nat → Bytes) (E : Un.Env) (number : Nat → Un.Number) : Rd.Out :=
  { Qt.fmt above double with unit := fun n u => Un.cell E (number n) u, table := tab false, right := tab true }

end Verif.Tw
