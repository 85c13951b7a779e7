import Verif.Proofs.JsonWider
import Verif.Props.JsonFormat
/-
C77: JSON on a wider page.
-/
namespace PPP
variable {sw : String → Nat} {w w' : Nat} {okString okNumber : String → Prop}

/-- **C77.**  On a wider page, a JSON document does not take more lines: there are at most as many newlines in its text. -/
theorem C77_fewer_lines {e : Json} (h : e.Document okString okNumber) (hw : w ≤ w') {s s' : String}
    (hs : prettyPrintToString (P := basicDoc sw) e.build w = Exec.ofRes (.ok s))
    (hs' : prettyPrintToString (P := basicDoc sw) e.build w' = Exec.ofRes (.ok s')) :
    s'.toList.count '\n' ≤ s.toList.count '\n' := by
  obtain ⟨rfl, _⟩ := (C76_layout h s).1 hs
  obtain ⟨rfl, _⟩ := (C76_layout h s').1 hs'
  have hwd := docLines_wider (sw := sw) hw h
  have h1 := hwd.fewer
  have h2 := hwd.nls
  change nls _ ≤ nls _
  by_cases e' : e.docLines sw w' = []
  · rw [e']
    exact Nat.zero_le _
  · have h0 : e.docLines sw w ≠ [] := by
      have := List.length_pos_iff.2 e'
      exact List.length_pos_iff.1 (by omega)
    have a := nls_lines ((e.docLines sw w').map Word.str) (by simpa using e')
    have b := nls_lines ((e.docLines sw w).map Word.str) (by simpa using h0)
    have sum : ∀ L : List Word, ((L.map Word.str).map nls).sum = nlsAll L := by
      intro L
      rw [List.map_map]
      rfl
    rw [sum, List.length_map] at a b
    omega

/-- **C77.**  A line that is too wide is there at all smaller widths, too.  At width 0 everything is broken that can be broken, so
    only lines that cannot be broken are too wide. -/
theorem C77_too_wide {e : Json} (h : e.Document okString okNumber) (hw : w ≤ w') {l : Word} (hl : l ∈ e.docLines sw w')
    (hwide : w' < l.width) : l ∈ e.docLines sw w :=
  (docLines_wider hw h).wide l hl hwide

/-- **C77.**  A document that is printed for a width, and whose lines all fit in a smaller one, is printed in the same way for the
    smaller width. -/
theorem C77_same {e : Json} (h : e.Document okString okNumber) (hw : w ≤ w') (hl : ∀ l ∈ e.docLines sw w', l.width ≤ w) (s : String) :
    prettyPrintToString (P := basicDoc sw) e.build w = Exec.ofRes (.ok s) ↔
      prettyPrintToString (P := basicDoc sw) e.build w' = Exec.ofRes (.ok s) := by
  rw [C76_layout h, C76_layout h, docLines_same hw h hl]

/-- **C77.**  If a document can be made to fit at all, by printing it for any width, then it fits when it is printed for the
    width that there is. -/
theorem C77_fits {e : Json} (h : e.Document okString okNumber) {any : Nat} (hl : ∀ l ∈ e.docLines sw any, l.width ≤ w) :
    ∀ l ∈ e.docLines sw w, l.width ≤ w := by
  rcases Nat.le_total any w with ha | ha
  · intro l hlw
    by_cases hx : l.width ≤ w
    · exact hx
    · exact hl l (C77_too_wide h ha hlw (by omega))
  · rw [docLines_same ha h hl]
    exact hl

namespace Ex

/-- C77: on the wider page, `fmtJson` takes fewer lines. -/
example : (fmtJson.docLines String.length 30).length < (fmtJson.docLines String.length 14).length := by decide +kernel

/-- C77: on a page of 9 columns, some lines are too wide, and they are so on a page of 3 columns. -/
example : (⟨"        // x", 12⟩ : Word) ∈ fmtJson.docLines String.length 9 ∧ (⟨"        // x", 12⟩ : Word) ∈ fmtJson.docLines String.length 3 := by
  have h : (⟨"        // x", 12⟩ : Word) ∈ fmtJson.docLines String.length 9 := by decide +kernel
  exact ⟨h, C77_too_wide fmtJson_ok (by decide) h (by decide)⟩

/-- C77: printed for width 25, all lines fit in 18 columns, so printing for width 18 does the same. -/
example (s : String) : prettyPrintToString (P := basicDoc String.length) fmtJson.build 18 = Exec.ofRes (.ok s) ↔
    prettyPrintToString (P := basicDoc String.length) fmtJson.build 25 = Exec.ofRes (.ok s) := by
  refine C77_same fmtJson_ok (by decide) ?_ s
  have : (fmtJson.docLines String.length 25).all (fun l => decide (l.width ≤ 18)) = true := by decide +kernel
  simpa [List.all_eq_true] using this

/-- C77: it can be made to fit in 16 columns. -/
example : ∀ l ∈ fmtJson.docLines String.length 16, l.width ≤ 16 := by
  refine C77_fits (any := 0) fmtJson_ok ?_
  have : (fmtJson.docLines String.length 0).all (fun l => decide (l.width ≤ 16)) = true := by decide +kernel
  simpa [List.all_eq_true] using this

end Ex

end PPP
