import Verif.Tests.Common
/- /repo/tests/parser_suite.cpp -/
namespace Wjson.Tests
open Wjson

/-! `parse_space`, lines 7-31 -/
example : scan parseSpace b!"\t\n/*Комментарий */  " = ((b!"\t\n/*Комментарий */  ").length, false) := by decide +kernel
example : scan parseSpace b!"\t\n//*Комментарий *" = ((b!"\t\n//*Комментарий *").length, true) := by decide +kernel
example : isSpace b!"\t\n//*Комментарий *" = true := by decide +kernel
example : isSpace ((b!"\t\n//*Комментарий *").drop 2) = false := by decide +kernel
example : isSpace ((b!"\t\n//*Комментарий *").drop 3) = true := by decide +kernel
example : isSpace ((b!"\t\n//*Комментарий *").drop 4) = false := by decide +kernel
example : isSpace [] = false := by decide +kernel

/-! `parse_null`, lines 33-57 -/
example : scan parseNull b!"null" = (4, false) := by decide +kernel
example : scan parseNull b!"nul" = (3, true) := by decide +kernel
example : scan parseNull b!"" = (0, true) := by decide +kernel
example : scan parseNull b!"nulx" = (4, true) := by decide +kernel
example : scan parseNull b!"ull" = (3, true) := by decide +kernel

/-! `parse_bool`, lines 59-89 -/
example : scan parseBool b!"true" = (4, false) := by decide +kernel
example : (scan parseBool b!"").2 = true := by decide +kernel
example : (scan parseBool b!"tru").2 = true := by decide +kernel
example : (scan parseBool b!"truE").2 = true := by decide +kernel
example : (scan parseBool b!"falsE").2 = true := by decide +kernel
example : (scan parseBool b!"False").2 = true := by decide +kernel

/-! `parse_integer`, lines 91-142 -/
example : scan parseInteger b!"-3e-12" = (2, false) := by decide +kernel
example : (scan parseInteger b!"").2 = true := by decide +kernel
example : (scan parseInteger b!"e-12").2 = true := by decide +kernel
example : (scan parseInteger b!"-").2 = true := by decide +kernel
example : scan parseInteger b!"-123" = (4, false) := by decide +kernel
example : scan parseInteger b!"-123.X" = (4, false) := by decide +kernel
example : (scan parseInteger b!"-A").2 = true := by decide +kernel
example : scan parseInteger b!"1." = (1, false) := by decide +kernel
example : scan parseInteger b!"123eX" = (3, false) := by decide +kernel

/-! `parse_number`, lines 144-184 -/
example : scan parseNumber b!"-3e-12" = (6, false) := by decide +kernel
example : (scan parseNumber b!"").2 = true := by decide +kernel
example : (scan parseNumber b!"-3e").2 = true := by decide +kernel
example : (scan parseNumber b!"-").2 = true := by decide +kernel
example : (scan parseNumber b!"-A").2 = true := by decide +kernel
example : (scan parseNumber b!"1.").2 = true := by decide +kernel
example : (scan parseNumber b!"1eX").2 = true := by decide +kernel

/-! `parse_string`, lines 186-203 -/
example : isString b!"" = false := by decide +kernel
example : (scan parseString b!"\"\\x\"").2 = true := by decide +kernel
example : (scan parseString b!"\"\\u123\"").2 = true := by decide +kernel

end Wjson.Tests
