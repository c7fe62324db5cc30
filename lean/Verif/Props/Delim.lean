import Verif.Props.TTL
import Verif.Props.SubExport
/-
C47: changing the delimiter of a trie.
-/
namespace Verif
variable {α : Type} [Inhabited α]

/-- radix/trie.go:824 `SetDelimiter`: only the view changes, the tree is not touched. -/
def View.setDelimiter (v : View) (d : Char) : View := { v with delim := d }

/-- The path is free of route patterns for both delimiters. -/
def NoRoute2 (d d' : Char) (k : Str) : Prop := NoRoute d k ∧ NoRoute d' k

omit [Inhabited α] in
theorem full_nopre {v : View} (hpre : v.pre = []) (k : Str) : v.full k = k := by simp [View.full, hpre]

/-- **C47** Whatever the history (through whatever views and delimiters), after `SetDelimiter` every entry answers `MustGet` and
`Has` at its full path as before, with the data of the entry, and so does `Get` when the entry is a leaf. -/
theorem C47_stored {v : View} (hpre : v.pre = []) (hm : v.mode ≠ .up) (d : Char) {t : Tree α} (h : Reach (NoRoute2 v.delim d) t)
    {k : Str} {c : Core α} (hc : t.contents k = some c) :
    v.mustGet t k = .ok (if c.hasData then c.data else default) ∧
      (v.setDelimiter d).mustGet t k = .ok (if c.hasData then c.data else default) ∧
      v.has t k = .ok true ∧ (v.setDelimiter d).has t k = .ok true ∧
      (c.leaf = true → v.get t k = .ok (if c.hasData then c.data else default, true) ∧
        (v.setDelimiter d).get t k = .ok (if c.hasData then c.data else default, true)) := by
  have h1 : Reach (NoRoute v.delim) t := h.mono (fun _ h => h.1)
  have h2 : Reach (NoRoute (v.setDelimiter d).delim) t := h.mono (fun _ h => h.2)
  have r1 : resolve v.delim t.contents (v.full k) = some (k, c) := by rw [full_nopre hpre]; exact resolve_at hc
  have r2 : resolve (v.setDelimiter d).delim t.contents ((v.setDelimiter d).full k) = some (k, c) := by
    rw [full_nopre (v := v.setDelimiter d) hpre]; exact resolve_at hc
  refine ⟨mustGet_hit h1.ok h1.plain r1, mustGet_hit h2.ok h2.plain r2, ?_, ?_, fun hl => ?_⟩
  · rw [has_plain h1.ok h1.plain hm, r1]; rfl
  · rw [has_plain h2.ok h2.plain (v := v.setDelimiter d) hm, r2]; rfl
  · rw [get_hit h1.ok h1.plain r1, get_hit h2.ok h2.plain r2]
    simp [hl]

/-- **C47** In particular: after any `Set` calls, through views of any delimiters, then `SetDelimiter(d)`, a key reads the value assigned last. -/
theorem C47_last_write (h : List (View × Str × α)) {v : View} (hpre : v.pre = []) (d : Char)
    (hk : ∀ a ∈ h, NoRoute d (keyOf a.1 a.2.1)) {k : Str} {x : α} (hl : lastWrite (assigns h) k = some x) :
    (v.setDelimiter d).mustGet (sets h Tree.new) k = .ok x :=
  C03_last_write_wins h (v.setDelimiter d) hk k x (by rw [full_nopre (v := v.setDelimiter d) hpre]; exact hl)

/-- **C47** A path that neither is stored nor becomes stored by appending one of the two delimiters is absent before and after. -/
theorem C47_absent {v : View} (hpre : v.pre = []) (hm : v.mode ≠ .up) (d : Char) {t : Tree α} (h : Reach (NoRoute2 v.delim d) t)
    {k : Str} (h0 : t.contents k = none) (h1 : t.contents (k ++ [v.delim]) = none) (h2 : t.contents (k ++ [d]) = none) :
    v.has t k = .ok false ∧ (v.setDelimiter d).has t k = .ok false ∧
      v.mustGet t k = .ok default ∧ (v.setDelimiter d).mustGet t k = .ok default := by
  have g1 : Reach (NoRoute v.delim) t := h.mono (fun _ h => h.1)
  have g2 : Reach (NoRoute (v.setDelimiter d).delim) t := h.mono (fun _ h => h.2)
  have hne : k ≠ [] := by rintro rfl; rw [Tree.contents_root g1.ok] at h0; cases h0
  have r1 : resolve v.delim t.contents (v.full k) = none := by
    rw [full_nopre hpre]; simp [resolve, h0, h1]
  have r2 : resolve (v.setDelimiter d).delim t.contents ((v.setDelimiter d).full k) = none := by
    rw [full_nopre (v := v.setDelimiter d) hpre]; simp [resolve, h0, h2, View.setDelimiter]
  refine ⟨?_, ?_, ?_, ?_⟩
  · rw [has_plain g1.ok g1.plain hm, r1]; rfl
  · rw [has_plain g2.ok g2.plain (v := v.setDelimiter d) hm, r2]; rfl
  · rw [mustGet_plain g1.ok g1.plain hm, r1]
  · rw [mustGet_plain g2.ok g2.plain (v := v.setDelimiter d) hm, r2]

/-- Between the two: a path stored with the new delimiter appended becomes readable without it, and one stored with the old delimiter
appended no longer is. -/
theorem C47_shift {v : View} (hpre : v.pre = []) (hm : v.mode ≠ .up) {d : Char} {t : Tree α}
    (h : Reach (NoRoute2 v.delim d) t) {k : Str} (hne : k ≠ []) (h0 : t.contents k = none) (h1 : t.contents (k ++ [v.delim]) = none)
    {c : Core α} (h2 : t.contents (k ++ [d]) = some c) :
    v.has t k = .ok false ∧ (v.setDelimiter d).has t k = .ok true ∧
      (v.setDelimiter d).mustGet t k = .ok (if c.hasData then c.data else default) := by
  have g1 : Reach (NoRoute v.delim) t := h.mono (fun _ h => h.1)
  have g2 : Reach (NoRoute (v.setDelimiter d).delim) t := h.mono (fun _ h => h.2)
  have r1 : resolve v.delim t.contents (v.full k) = none := by
    rw [full_nopre hpre]; simp [resolve, h0, h1]
  have r2 : resolve (v.setDelimiter d).delim t.contents ((v.setDelimiter d).full k) = some (k ++ [d], c) := by
    rw [full_nopre (v := v.setDelimiter d) hpre]; simp [resolve, h0, h2, View.setDelimiter, hne]
  refine ⟨?_, ?_, mustGet_hit g2.ok g2.plain r2⟩
  · rw [has_plain g1.ok g1.plain hm, r1]; rfl
  · rw [has_plain g2.ok g2.plain (v := v.setDelimiter d) hm, r2]; rfl

/-- The tree of the example in the comment of `SetDelimiter`. -/
def dtree : Tree Nat :=
  sets (["/search", "/support", "/blog/:post/", "/about-us/team", "/contact", "/about-us/legal"].zipIdx.map
    fun x => (View.new '.', x.1.toList, x.2 + 1)) Tree.new

/-- `Get`'s found flag at a branch depends on the delimiter: "/about-us/" is a branch, found only once '/' is the delimiter. -/
theorem C47_branch_found_fails : ∃ (v : View) (d : Char) (t : Tree Nat) (k : Str), v.pre = [] ∧
    v.get t k = .ok (0, false) ∧ (v.setDelimiter d).get t k = .ok (0, true) :=
  ⟨View.new '.', '/', dtree, "/about-us/".toList, rfl, by decide +kernel, by decide +kernel⟩

/-- The same tree with values as `Store` keeps them. -/
def dtreeA : Tree (Any Nat Unit) :=
  sets (["/search", "/support", "/blog/:post/", "/about-us/team", "/contact", "/about-us/legal"].zipIdx.map
    fun x => (View.new '.', x.1.toList, .atom (x.2 + 1))) Tree.new

/-- What the comment of `SetDelimiter` promises: `GetM("/about-us")` then holds the two pages. -/
example : mkeys (((View.new '.').setDelimiter '/').getM dtreeA "/about-us".toList MOpts.default) = ["team".toList, "legal".toList] := by
  decide +kernel

/-- A leaf entry and its answers before and after. -/
example : (View.new '.').mustGet dtree "/about-us/team".toList = .ok 4 ∧
    ((View.new '.').setDelimiter '/').mustGet dtree "/about-us/team".toList = .ok 4 := by decide +kernel

/-- The hypotheses of `C47_stored` are met by the histories without ':' and '*'. -/
example : Reach (NoRoute2 '.' '/') (sets [(View.new '.', "/a.b/c".toList, 4), (View.new '/', "/a.d".toList, 6)] (Tree.new : Tree Nat)) :=
  Reach.new.sets _ (by
    have g : ∀ d k, ':' ∉ k → '*' ∉ k → NoRoute d k := by
      rintro d k h1 h2 u c v rfl
      simp at h1 h2
      exact ⟨fun e => h1.2.2.1 e.symm, fun e => h2.2.2.1 e.symm⟩
    intro a ha
    simp only [List.mem_cons, List.not_mem_nil, or_false] at ha
    rcases ha with rfl | rfl <;> exact ⟨g _ _ (by decide) (by decide), g _ _ (by decide) (by decide)⟩)

end Verif
