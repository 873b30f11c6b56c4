import Verif.Model.Main
/-! # cmd/dupi: the usage message (cmd/dupi/dupi.go:73-89, `Usage` of the verbs)

Not modelled: writing it fails; `fmt` counts runes where it pads, here bytes are counted (all is ASCII). -/

namespace Dupi
namespace Cmd

/-- `Usage` of the verbs: cmd/dupi/index.go:54-56, cmd/dupi/extract.go:49-51, cmd/dupi/blot.go:40-42, cmd/dupi/unblot.go:37-39, cmd/dupi/inspect.go:44-46,
cmd/dupi/like.go:39-41: "paths", "extract from the index root", "blot [files]", "unblot <blot>", "inspect the root index.", "[file path]". -/
def Verb.usage : Verb → Bytes
  | .index => [112, 97, 116, 104, 115]
  | .extract => [101, 120, 116, 114, 97, 99, 116, 32, 102, 114, 111, 109, 32, 116, 104, 101, 32, 105, 110, 100, 101, 120, 32, 114, 111, 111, 116]
  | .blot => [98, 108, 111, 116, 32, 91, 102, 105, 108, 101, 115, 93]
  | .unblot => [117, 110, 98, 108, 111, 116, 32, 60, 98, 108, 111, 116, 62]
  | .inspect => [105, 110, 115, 112, 101, 99, 116, 32, 116, 104, 101, 32, 114, 111, 111, 116, 32, 105, 110, 100, 101, 120, 46]
  | .like => [91, 102, 105, 108, 101, 32, 112, 97, 116, 104, 93]

/-- `%-ns` of fmt (library, trusted base) -/
def padRight (n : Nat) (s : Bytes) : Bytes := s ++ List.replicate (n - s.length) 32

/-- `%ns` of fmt (library, trusted base) -/
def padLeft (n : Nat) (s : Bytes) : Bytes := List.replicate (n - s.length) 32 ++ s

/-- cmd/dupi/dupi.go:77: one verb -/
def usageLine (v : Verb) : Bytes := 9 :: padRight 10 v.name ++ 32 :: padLeft 30 v.usage ++ [10]

/-- cmd/dupi/dupi.go:80-82 with the one global flag (cmd/dupi/dupi.go:41: "r", default "", "index root"; `%q` of "" is two quotes) -/
def usageFlag : Bytes := 9 :: 45 :: padRight 16 [114] ++ [32, 100, 101, 102, 97, 117, 108, 116, 61] ++ padRight 16 [34, 34] ++ 32 :: [105, 110, 100, 101, 120, 32, 114, 111, 111, 116] ++ [10]

/-- cmd/dupi/dupi.go:73-84; `order` is the order in which the map of verbs is gone through: "usage: dupi [global opts] <verb> <args>", "verbs are:", the verbs,
"", "global options:", the flag, "", "To get help on a verb, try dupi <verb> -h." -/
def usage (order : List Verb) : Bytes :=
  [117, 115, 97, 103, 101, 58, 32, 100, 117, 112, 105, 32, 91, 103, 108, 111, 98, 97, 108, 32, 111, 112, 116, 115, 93, 32, 60, 118, 101, 114, 98, 62, 32, 60, 97, 114, 103, 115, 62, 10] ++
  [118, 101, 114, 98, 115, 32, 97, 114, 101, 58, 10] ++
  order.flatMap usageLine ++
  [10, 103, 108, 111, 98, 97, 108, 32, 111, 112, 116, 105, 111, 110, 115, 58, 10] ++
  usageFlag ++
  [10, 84, 111, 32, 103, 101, 116, 32, 104, 101, 108, 112, 32, 111, 110, 32, 97, 32, 118, 101, 114, 98, 44, 32, 116, 114, 121, 32, 100, 117, 112, 105, 32, 60, 118, 101, 114, 98, 62, 32, 45, 104, 46, 10]

end Cmd
end Dupi
