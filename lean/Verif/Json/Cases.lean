import Verif.Json.Conf
/-!
# C85: examples and counterexamples
-/
namespace Arax.Json
open Arax.Ctrl.Conf

/-- A usual configuration file. -/
def sample : String :=
  "{ \"paths\" : [\"lib\"],\n \"groups\":{\"cpus\":{\"accels\":[{\"arch\":\"CPU\", \"cpu_core\":\"1\"},{\"arch\":\"GPU\",\"pci_id\":7}], \"sched\":{\"class\":\"Elastic\"}}}}"

/-- The controller as built, with 8 cores, given this text in the file. -/
def start (s : String) : Option Cfg := load allThreads builtScheds 8 none (some (bytes s))

example : seen (start sample) = some [("cpus", 0, 3), ("cpus", 1, 1)] := by decide +kernel
example : (start sample).map (fun c => c.paths.map String.ofList) = some ["lib"] := by decide +kernel
example : (start sample).map (fun c => c.scheds.map (fun g => (String.ofList g.1, String.ofList g.2))) = some [("cpus", "Elastic")] := by decide +kernel
example : (start sample).map (·.clean) = some true := by decide +kernel

/-- ARAXCNTRL_CONF replaces the text of the file, but the file must be there. -/
example : seen (load allThreads builtScheds 8 (some (bytes "{\"groups\":{\"g\":{\"accels\":[{\"arch\":\"CPU\"}]}}}")) (some (bytes "no json"))) = some [("g", 0, 3)] ∧
    (load allThreads builtScheds 8 (some (bytes "{\"groups\":{\"g\":{\"accels\":[{\"arch\":\"CPU\"}]}}}")) none).isNone = true := by decide +kernel

/-- Refused: a core given as a number, an absolute path, an unknown scheduler, no group, an accelerator without arch. -/
example : (start "{\"groups\":{\"g\":{\"accels\":[{\"arch\":\"CPU\",\"cpu_core\":1}]}}}").isNone = true ∧
    (start "{\"paths\":[\"/lib\"],\"groups\":{\"g\":{\"accels\":[{\"arch\":\"CPU\"}]}}}").isNone = true ∧
    (start "{\"groups\":{\"g\":{\"accels\":[{\"arch\":\"CPU\"}],\"sched\":{\"class\":\"Serial\"}}}}").isNone = true ∧
    (start "{\"groups\":{}}").isNone = true ∧ (start "{\"groups\":{\"g\":{\"accels\":[{}]}}}").isNone = true := by decide +kernel

/-- Numbers, escapes and surrogates. -/
def isOk : Res → Bool
  | .ok _ _ => true
  | _ => false

/-- The string that was read. -/
def strOf : Res → Option (List Nat)
  | .ok (.str s) _ => some s
  | _ => none

/-- The integer that was read. -/
def intOf : Res → Option Int
  | .ok (.int s) _ => some s
  | _ => none

/-- The decimal that was read. -/
def decOf : Res → Option (Int × Int)
  | .ok (.dec m e) _ => some (m, e)
  | _ => none

example : strOf (parse (bytes "\"a\\n\\u00e9\\ud83d\\ude00\"")) = some [97, 10, 0xc3, 0xa9, 0xf0, 0x9f, 0x98, 0x80] := by decide +kernel
example : isOk (parse (bytes "\"\\ud83d\"")) = false ∧ isOk (parse (bytes "\"\\ude00\"")) = false ∧ isOk (parse (bytes "\"\\x\"")) = false := by decide +kernel
example : intOf (parse (bytes " -12 ")) = some (-12) ∧ intOf (parse (bytes "9223372036854775807")) = some (2 ^ 63 - 1) ∧
    decOf (parse (bytes "9223372036854775808")) = some (2 ^ 63, 0) ∧ decOf (parse (bytes "-1.5e2")) = some (-15, 1) ∧
    intOf (parse (bytes "007")) = some 7 ∧ isOk (parse (bytes "+7")) = false ∧ isOk (parse (bytes "[1,]")) = false ∧ isOk (parse (bytes "{\"a\":1,}")) = false := by
  decide +kernel

/-- `{"a":[1,true]}` is a document of the grammar (the hypothesis of `C85_reads` and `C85_config`). -/
example : Doc Strict (bytes "{\"a\" : [1,true]}") (.obj [(bytes "a", .arr [.int 1, .bool true])]) := by
  refine ⟨[], bytes "{\"a\" : [1,true]}", [], by simp, fun c hc => (by cases hc), ?_, fun c hc => (by cases hc)⟩
  have h0 : Ws [] := fun c hc => by cases hc
  have h1 : Ws [32] := fun c hc => by left; simpa using hc
  have n1 : Strict [49] (.int 1) := by
    refine ⟨⟨false, [49], none, none⟩, rfl, ?_, .inr ⟨by decide, by decide⟩, fun f hf => (by cases hf), fun l sg ds h => (by cases h), by unfold NumParts.Holds; decide +kernel, ?_⟩
    · intro d hd; rw [List.mem_singleton.1 hd]; decide
    · unfold NumParts.Denotes; rw [if_pos (by decide +kernel)]; rfl
  have a1 : G Strict (([] ++ [49] ++ []) ++ [44] ++ ([] ++ [116, 114, 117, 101] ++ [])) (.items [.int 1, .bool true]) :=
    .items h0 (.num n1) h0 (.item h0 .true h0)
  have m1 : G Strict ([] ++ [34] ++ [97] ++ [34] ++ [32] ++ [58] ++ [32] ++ ([91] ++ (([] ++ [49] ++ []) ++ [44] ++ ([] ++ [116, 114, 117, 101] ++ [])) ++ [93]) ++ [])
      (.members [([97], .arr [.int 1, .bool true])]) :=
    .member h0 (.raw (by decide) (by decide) (by decide) .nil) h1 h1 (.arr a1) h0
  exact .obj m1 ⟨by simp [bytes], fun k => by
    unfold entry lastOf
    by_cases h : k = [97]
    · subst h; rfl
    · have : ([97] == k) = false := by simpa using fun e => h e.symm
      simp [bytes, this]⟩

/-! ## Where it fails -/

/-- Text of a grammar object ends with `}`. -/
theorem obj_last {N : List Nat → JVal → Prop} (hN : ∀ t o, ¬ N t (.obj o)) {u : List Nat} {o : List (List Nat × JVal)} (h : G N u (.val (.obj o))) :
    ∃ t, u = t ++ [125] := by
  cases h with
  | num hn => exact absurd hn (hN _ _)
  | obj0 _ => exact ⟨_, rfl⟩
  | obj _ _ => exact ⟨_, rfl⟩

theorem strict_not_obj (t : List Nat) (o : List (List Nat × JVal)) : ¬ Strict t (.obj o) := by
  rintro ⟨p, _, _, _, _, _, _, hd⟩
  unfold NumParts.Denotes at hd
  split at hd <;> cases hd

/-- The last character of a document that is an object is `}` or white space. -/
theorem doc_obj_last {t : List Nat} {o : List (List Nat × JVal)} (h : Doc Strict t (.obj o)) : ∃ c, t.getLast? = some c ∧ (c = 125 ∨ isWs c = true) := by
  obtain ⟨w, u, w', rfl, _, hg, hw'⟩ := h
  obtain ⟨t, rfl⟩ := obj_last strict_not_obj hg
  rcases List.eq_nil_or_concat w' with rfl | ⟨x, c, rfl⟩
  · refine ⟨125, ?_, .inl rfl⟩
    rw [List.append_nil, ← List.append_assoc]
    exact List.getLast?_concat
  · refine ⟨c, ?_, .inr ((isWs_iff c).2 (hw' c (by simp)))⟩
    rw [List.concat_eq_append, ← List.append_assoc]
    exact List.getLast?_concat

/-- A complete configuration followed by another, cut off, one. -/
def twice : String := "{\"groups\":{\"g\":{\"accels\":[{\"arch\":\"CPU\"}]}}}\n{\"groups\":{\"h\":{\"acc"

/-- **C85** is violated: text that is not JSON is accepted — what follows the first value is ignored, here the remains of a second configuration —
and the controller starts. -/
theorem C85_violated_trailing : seen (start twice) = some [("g", 0, 3)] ∧ ∀ v, ¬ Doc Strict (bytes twice) v := by
  refine ⟨by decide +kernel, fun v h => ?_⟩
  obtain ⟨j, e⟩ := C85_reads h
  have ho : (match parse (bytes twice) with | .ok (.obj _) _ => true | _ => false) = true := by decide +kernel
  rw [e] at ho
  cases v with
  | obj o =>
    obtain ⟨c, hc, h2⟩ := doc_obj_last h
    have h3 : (bytes twice).getLast? = some 99 := by decide +kernel
    rw [h3] at hc
    cases hc
    rcases h2 with h2 | h2 <;> cases h2
  | _ => cases ho

/-- A group that is declared twice, with different accelerators. -/
def redeclared : String := "{\"groups\":{\"g\":{\"accels\":[{\"arch\":\"CPU\"},{\"arch\":\"CPU\"}]},\"g\":{\"accels\":[{\"arch\":\"GPU\"}]}}}"

/-- **C85** is violated: a group declared twice is meant to be refused (Config.cpp:281-284), but the duplicate is gone before that check: the controller
starts with the accelerators of the last declaration only. -/
theorem C85_violated_redeclared : seen (start redeclared) = some [("g", 0, 1)] := by decide +kernel

end Arax.Json
