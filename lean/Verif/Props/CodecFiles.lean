import Verif.Model.CodecFiles
import Verif.Props.Codecs
/-
C96 the methods Load and Save of the codecs.
-/
namespace Verif
namespace CodecFiles
open Codecs (Res)
variable {M B : Type}

/-- **C96** `Load` never changes a file. -/
theorem C96_untouched (first : B → Option M) (doc : B → YDoc M) (k : Disk B) (f : Str) :
    (jsonLoad first k f).1.files = k.files ∧ (yamlLoad doc k f).1.files = k.files ∧ (noLoad (M := M) k f).1 = k := by
  refine ⟨?_, ?_, rfl⟩
  · simp only [jsonLoad, Disk.openFile]
    cases k.files f <;> rfl
  · simp only [yamlLoad, Disk.openFile]
    cases k.files f <;> rfl

/-- **C96** A file that does not exist is an error, and nothing is left open. -/
theorem C96_missing (first : B → Option M) (doc : B → YDoc M) (k : Disk B) (f : Str) (h : k.files f = none) :
    jsonLoad first k f = (k, .ret ⟨none, true⟩) ∧ yamlLoad doc k f = (k, .ret ⟨none, true⟩) := by
  simp [jsonLoad, yamlLoad, Disk.openFile, h]

/-- **C96** For json, `Load` returns what `Unmarshal` of the contents returns, if `Unmarshal` accepts them. (`dec` is
`json.Unmarshal`; that the two functions of the library agree on documents is the hypothesis.) Missing for the full claim: contents
that `Unmarshal` rejects (`C96_trailing_fails`), and the other codecs. -/
theorem C96_json_partial (dec first : B → Option M) (agree : ∀ b m, dec b = some m → first b = some m) (k : Disk B) {f : Str} {b : B}
    (hb : k.files f = some b) {m : M} (hm : dec b = some m) : (jsonLoad first k f).2 = .ret ⟨some m, false⟩ := by
  simp [jsonLoad, Disk.openFile, hb, agree b m hm, Res.ofLib]

/-- **C96 fails:** contents that begin with a document are accepted whatever follows, where `Unmarshal` reports an error. -/
theorem C96_trailing_fails (dec first : B → Option M) (k : Disk B) {f : Str} {b : B} (hb : k.files f = some b) {m : M}
    (hf : first b = some m) (hd : dec b = none) :
    (jsonLoad first k f).2 = .ret ⟨some m, false⟩ ∧ Res.ofLib (dec b) = ⟨none, true⟩ := by
  simp [jsonLoad, Disk.openFile, hb, hf, hd, Res.ofLib]

/-- **C96 fails:** `Load` of yaml never returns a map. It panics exactly for the files whose contents are a map, which are those
that `Unmarshal` makes something of. -/
theorem C96_yaml_fails (doc : B → YDoc M) (k : Disk B) (f : Str) :
    (∀ r, (yamlLoad doc k f).2 = .ret r → r.data = none) ∧
    ((yamlLoad doc k f).2 = .panic ↔ ∃ b m, k.files f = some b ∧ yamlUnmarshal doc b = ⟨some m, false⟩) := by
  simp only [yamlLoad, Disk.openFile]
  cases hf : k.files f with
  | none => simp
  | some b =>
    simp only [Option.map_some]
    cases hd : doc b <;> simp [yamlUnmarshal, hd]

/-- **C96** For yaml, `Load` returns what `Unmarshal` of the contents returns, if they are a document but not a map. Missing for the
full claim: maps (`C96_yaml_fails`) and contents without a document (`C96_empty_fails`). -/
theorem C96_yaml_partial (doc : B → YDoc M) (k : Disk B) {f : Str} {b : B} (hb : k.files f = some b) (hm : ∀ m, doc b ≠ .map m)
    (he : doc b ≠ .eof) : (yamlLoad doc k f).2 = .ret (yamlUnmarshal doc b) := by
  simp only [yamlLoad, Disk.openFile, hb, Option.map_some]
  cases hd : doc b <;> simp_all [yamlUnmarshal]

/-- **C96 fails:** an empty file is an error for `Load` of yaml and none for `Unmarshal`. -/
theorem C96_empty_fails (doc : B → YDoc M) (k : Disk B) {f : Str} {b : B} (hb : k.files f = some b) (he : doc b = .eof) :
    (yamlLoad doc k f).2 = .ret ⟨none, true⟩ ∧ yamlUnmarshal doc b = ⟨none, false⟩ := by
  simp [yamlLoad, Disk.openFile, hb, he, yamlUnmarshal]

/-- **C96 fails:** the other codecs load nothing. -/
theorem C96_none_fails (k : Disk B) (f : Str) : (noLoad (M := M) k f).2 = .ret ⟨none, true⟩ := rfl

/-- **C96 fails:** no file is ever closed. After any loads with json or yaml, whatever the contents, as many files are open as existing
files were named, besides those that were open before. -/
theorem C96_open_fails (first : B → Option M) (doc : B → YDoc M) (k : Disk B) (fs : List Str) :
    (loads (jsonLoad first) k fs).opened = (fs.filter fun f => (k.files f).isSome).reverse ++ k.opened ∧
    (loads (yamlLoad doc) k fs).opened = (fs.filter fun f => (k.files f).isSome).reverse ++ k.opened := by
  constructor
  · induction fs generalizing k with
    | nil => rfl
    | cons f fs ih =>
      rw [loads, ih, (C96_untouched first doc k f).1]
      simp only [jsonLoad, Disk.openFile]
      cases hf : k.files f <;> simp [hf]
  · induction fs generalizing k with
    | nil => rfl
    | cons f fs ih =>
      rw [loads, ih, (C96_untouched first doc k f).2.1]
      simp only [yamlLoad, Disk.openFile]
      cases hf : k.files f <;> simp [hf]

/-- **C96** `Save` of yaml writes what `Marshal` gives, `Unmarshal` of the file gives the map back if the library can read what it
writes, and no other file changes. Missing for the full claim: `C96_save_fails`. -/
theorem C96_save_partial (empty : B) (enc : M → Option B) (doc : B → YDoc M) (k : Disk B) (f : Str) {m : M} {b : B} (h : enc m = some b)
    (hd : doc b = .map m) :
    ∃ k', yamlSave empty enc k f m = (k', .ret ⟨some (), false⟩) ∧ k'.files f = some b ∧ yamlUnmarshal doc b = ⟨some m, false⟩ ∧
      ∀ g, g ≠ f → k'.files g = k.files g := by
  simp only [yamlSave, h]
  exact ⟨_, rfl, by simp [Disk.write], by simp [yamlUnmarshal, hd], fun g hg => by simp [Disk.write, Disk.create, hg]⟩

/-- **C96 fails:** if the map cannot be written, `Save` returns an error but has already emptied the file; and the file stays open in any case. -/
theorem C96_save_fails (empty : B) (enc : M → Option B) (k : Disk B) (f : Str) (m : M) :
    (enc m = none → (yamlSave empty enc k f m).2 = .ret ⟨none, true⟩ ∧ (yamlSave empty enc k f m).1.files f = some empty) ∧
    (yamlSave empty enc k f m).1.opened = f :: k.opened := by
  simp only [yamlSave]
  cases h : enc m <;> simp [Disk.create, Disk.write]

/-! ### Examples -/

/-- Numbers for documents: bytes are a list of numbers, a document is one number. -/
def exDec : List Nat → Option Nat
  | [n] => some n
  | _ => none

def exDisk : Disk (List Nat) := ⟨fun f => if f = "a.json".toList then some [5] else if f = "b.json".toList then some [5, 6] else none, []⟩

example : ∀ b m, exDec b = some m → List.head? b = some m := by
  intro b m h
  match b, h with
  | [n], h => simpa [exDec] using h

example : ((jsonLoad List.head? exDisk "a.json".toList).2 = .ret ⟨some 5, false⟩) ∧
    (jsonLoad List.head? exDisk "b.json".toList).2 = .ret ⟨some 5, false⟩ ∧ exDec [5, 6] = none ∧
    (loads (jsonLoad List.head?) exDisk ["a.json".toList, "c.json".toList, "b.json".toList, "a.json".toList]).opened =
      ["a.json".toList, "b.json".toList, "a.json".toList] ∧
    (yamlLoad (fun b => match b with | [] => .eof | [0] => .null | n :: _ => .map n) exDisk "a.json".toList).2 = .panic :=
  ⟨rfl, rfl, rfl, by decide +kernel, rfl⟩

example : (yamlSave [] (fun n => if n = 0 then none else some [n]) exDisk "a.json".toList 0).1.files "a.json".toList = some [] ∧
    (yamlSave [] (fun n => if n = 0 then none else some [n]) exDisk "a.json".toList 7).1.files "a.json".toList = some [7] := by
  decide +kernel

/-- A file with the document `null`, and an empty one. -/
def exDocs : Disk (List Nat) := ⟨fun f => if f = "n.yml".toList then some [0] else if f = "e.yml".toList then some [] else none, []⟩

def exDoc : List Nat → YDoc Nat
  | [] => .eof
  | [0] => .null
  | n :: _ => .map n

example : exDocs.files "n.yml".toList = some [0] ∧ (∀ m, exDoc [0] ≠ .map m) ∧ exDoc [0] ≠ .eof ∧
    (yamlLoad exDoc exDocs "n.yml".toList).2 = .ret ⟨none, false⟩ ∧
    exDocs.files "e.yml".toList = some [] ∧ exDoc [] = .eof ∧ (yamlLoad exDoc exDocs "e.yml".toList).2 = .ret ⟨none, true⟩ := by
  refine ⟨by decide +kernel, by simp [exDoc], by simp [exDoc], rfl, by decide +kernel, rfl, rfl⟩

end CodecFiles
end Verif
