import Verif.DocsProps

/-!
Concrete cases for C76, and what does not hold.
-/

namespace Verif.Docs
open Verif

def file (ls : List String) : List Str := ls.map String.toList

/-- a header -/
def hdr : List Str := file [
  "#include <vector>\n",
  "\n",
  "    /** A position.\n",
  "     *\n",
  "     * @meta unit m\n",
  "     *   indented\n",
  "     */\n",
  "\n",
  "    struct Position\n",
  "    {\n",
  "        /// the \"x\" coordinate\r\n",
  "        double x;\n",
  "        double y;\n",
  "    };\n"]

def hdrText : List Str := ["A position.", "", "@meta unit m", "  indented"].map String.toList

theorem blank_of {l : Str} (h : isBlank l = true) : Blank l := blank_iff.mp h

theorem hdrDoc : Doc hdrText where
  texts := by
    intro t ht
    refine ⟨?_, ?_⟩
    · simp only [hdrText, List.map, List.mem_cons, List.not_mem_nil, or_false] at ht
      rcases ht with rfl | rfl | rfl | rfl
      · exact .inr ⟨"A position".toList, '.', rfl, rfl⟩
      · exact .inl rfl
      · exact .inr ⟨"@meta unit ".toList, 'm', rfl, rfl⟩
      · exact .inr ⟨"  indente".toList, 'd', rfl, rfl⟩
    · simp only [hdrText, List.map, List.mem_cons, List.not_mem_nil, or_false] at ht
      rcases ht with rfl | rfl | rfl | rfl <;> decide
  first := by decide
  last := by decide
  left := ⟨"A position.".toList, by decide, 'A', " position.".toList, rfl, rfl⟩
  noEnd := by
    intro t ht a b e
    have : t = "  indented".toList := by
      have h2 : hdrText.getLast? = some "  indented".toList := rfl
      rw [h2] at ht; injection ht with ht; exact ht.symm
    rw [this] at e
    have hm : '*' ∈ "  indented".toList := by rw [e]; simp
    exact absurd hm (by decide)

/-- the comment of `struct Position`; the compiler reports the line of the brace -/
theorem hdrDocumented : Documented hdr 10 9 hdrText where
  parts := by
    refine ⟨[], "#include <vector>\n".toList, file ["\n"], file ["    /** A position.\n", "     *\n",
      "     * @meta unit m\n", "     *   indented\n", "     */\n"], file ["\n"], "    struct Position\n".toList,
      file ["    {\n"], file ["        /// the \"x\" coordinate\r\n", "        double x;\n", "        double y;\n", "    };\n"],
      1, 0, 1, rfl, ?_, ?_, ?_, ?_, ?_, ?_, rfl, rfl⟩
    · exact code_iff.mpr ⟨by decide, by decide⟩
    · intro l hl
      simp only [file, List.map, List.mem_cons, List.not_mem_nil, or_false] at hl
      subst hl
      exact blank_of (by decide)
    · refine .cons ?_ (.cons ?_ (.cons ?_ (.cons ?_ (.cons ?_ .nil))))
      · exact .text (indent := "    ".toList) (mark := "/**".toList) (pad := " ".toList) (t := "A position.".toList)
          (eol := "\n".toList) (blank_of (by decide)) (.opening 1) (blank_of (by decide)) rfl (by decide)
          (.inr ⟨"A position".toList, '.', rfl, rfl⟩) nofun (blank_of (by decide))
      · exact .empty (indent := "     ".toList) (mark := "*".toList) (eol := "\n".toList) (blank_of (by decide)) (.middle 0)
          (blank_of (by decide))
      · exact .text (indent := "     ".toList) (mark := "*".toList) (pad := " ".toList) (t := "@meta unit m".toList)
          (eol := "\n".toList) (blank_of (by decide)) (.middle 0) (blank_of (by decide)) rfl (by decide)
          (.inr ⟨"@meta unit ".toList, 'm', rfl, rfl⟩) nofun (blank_of (by decide))
      · exact .text (indent := "     ".toList) (mark := "*".toList) (pad := " ".toList) (t := "  indented".toList)
          (eol := "\n".toList) (blank_of (by decide)) (.middle 0) (blank_of (by decide)) rfl (by decide)
          (.inr ⟨"  indente".toList, 'd', rfl, rfl⟩) nofun (blank_of (by decide))
      · exact .empty (indent := "     ".toList) (mark := "*/".toList) (eol := "\n".toList) (blank_of (by decide)) (.closing 0)
          (blank_of (by decide))
    · intro l hl
      simp only [file, List.map, List.mem_cons, List.not_mem_nil, or_false] at hl
      subst hl
      exact blank_of (by decide)
    · intro h
      have := opener_iff.mpr h
      exact absurd this (by decide)
    · intro l hl
      simp only [file, List.map, List.mem_cons, List.not_mem_nil, or_false] at hl
      subst hl
      exact opener_iff.mp (by decide)

example : startLine hdr 15 10 = .ok 9 ∧
    docBefore 15 hdr 9 = .ok (some "A position.\n\n@meta unit m\n  indented".toList) :=
  C76_comment_partial hdrDocumented hdrDoc (by decide)
example := C76_metadata_partial Meta.Hist.init hdrDocumented hdrDoc (fuel := 15) (by decide)
example : describe 15 [] hdr 9 = .ok [("doc".toList, ["A position.\n\n@meta unit m\n  indented".toList]),
    ("unit".toList, ["m".toList])] := by decide +kernel
/-- the field `x`, after the declaration of the structure and its brace -/
example : docBefore 15 hdr 12 = .ok (some "the \"x\" coordinate".toList) := by decide +kernel
/-- the field `y` has no comment -/
example : docBefore 15 hdr 13 = .ok none :=
  C76_none_partial (before := hdr.take 11) (code := "        double x;\n".toList) (gap := []) (rest := hdr.drop 12)
    (code_iff.mpr ⟨by decide, by decide⟩) nofun (by decide)
example := C76_local_partial (before := []) (before' := hdr) (code := "int a;\n".toList) (code' := "}\n".toList)
  (win := file ["\n", "/* doc */\n", "\n"]) (rest := file ["struct A {};\n"]) (rest' := [])
  (code_iff.mpr ⟨by decide, by decide⟩) (code_iff.mpr ⟨by decide, by decide⟩)
  (by
    intro l hl
    simp only [file, List.map, List.mem_cons, List.not_mem_nil, or_false] at hl
    rcases hl with rfl | rfl | rfl <;> (rw [code_iff]; decide)) (fuel := 4) (by decide)
example := C76_ends hdr 9

/-! ### What does not hold -/

/-- C76 does not hold at the beginning of a file: the search goes on with the last
lines of the file (an index of -1 is the last element in Ruby), and the comment
there becomes a part of the documentation, or all of it. -/
theorem C76_cex_wrap :
    docBefore 9 (file ["/** A position */\n", "struct A {\n", "};\n", "// end of file\n"]) 2 =
      .ok (some "end of file\nA position ".toList) ∧
    docBefore 9 (file ["struct A {\n", "};\n", "// end of file\n"]) 1 = .ok (some "end of file".toList) := by decide +kernel

/-- The same for the line of the declaration: a type which is reported on line 1 of
a file that starts with a brace is said to be on line 0 or -1. -/
theorem C76_cex_line : startLine (file ["\n", "{\n", "};\n"]) 9 2 = .ok 0 ∧
    startLine (file ["\n", "{\n", "\n"]) 9 2 = .ok (-1) := by decide +kernel

/-- Comments which are separated from the one before the declaration, as the licence
at the top of a file, are taken for documentation of the declaration. -/
theorem C76_cex_joined :
    docBefore 9 (file ["#pragma once\n", "// Licence: LGPL\n", "\n", "// A position\n", "struct A {};\n"]) 5 =
      .ok (some "Licence: LGPL\nA position".toList) := by decide +kernel

/-- A line of code which starts with a comment, as a field does in C, is taken for
the documentation of the next one. -/
theorem C76_cex_code :
    docBefore 9 (file ["struct A {\n", "  /* unused */ int a;\n", "  int b;\n"]) 3 = .ok (some "unused  int a;".toList) := by
  decide +kernel

/-- The lines of a comment which do not start with a star end the search: the
documentation is lost. -/
theorem C76_cex_nostar :
    docBefore 9 (file ["int a;\n", "/** A position\n", "    in meters */\n", "struct A {};\n"]) 4 = .ok none := by decide +kernel

/-- Ends of comments stay in the text, unless they are in the last line. -/
theorem C76_cex_ends :
    docBefore 9 (file ["int a;\n", "/* A position */\n", "/* in meters */\n", "struct A {};\n"]) 4 =
      .ok (some "A position */\nin meters ".toList) := by decide +kernel

/-- Two spaces after `@meta` and the line is ignored. -/
theorem C76_cex_meta : addMetas [] "@meta  unit m".toList = [] ∧ addMetas [] "@meta unit m".toList ≠ [] := by decide +kernel

end Verif.Docs
