import Verif.Props.Blake2b
import Verif.Props.CliRun
/-
The session with the command line tool that README.md shows (lines 150-188), run in the model with the real hash function and the
compiled-in limits. It says nothing about other inputs; it ties the model, hash function and formats to output of the real program.
-/
namespace Urkel

/-- Run the tool with one command line after another; all of them must leave stdout and exit status as given, and stderr empty. -/
def session (fs : Bytes → Dir) : List (List String × String) → Bool
  | [] => true
  | (argv, out) :: more =>
    match cli blakeEnv 8 B32.zero (fun d => .ok (d, true)) fs none (argv.map txt) with
    | .ok (fs', e) => decide (e = ⟨txt out, [], 0⟩) && session fs' more
    | _ => false

/-- README.md:150-170. -/
theorem readme_data : session (fun _ => Dir.fresh)
    [(["create"], ""),
     (["root"], "0000000000000000000000000000000000000000000000000000000000000000\n"),
     (["insert", "foo", "deadbeef", "-H"], ""),
     (["root"], "1da2776eaa254ef65aeeee1f37f61c06bac2e82e221d37da21190191218f6631\n"),
     (["insert", "bar", "01020304", "-H"], ""),
     (["root"], "497b751637ff244ab969a965f8d9dc7623f18d649d012276dfb317b0e38b9bec\n"),
     (["get", "bar", "-H"], "01020304\n"),
     (["remove", "bar", "-H"], ""),
     (["root"], "1da2776eaa254ef65aeeee1f37f61c06bac2e82e221d37da21190191218f6631\n"),
     (["remove", "foo", "-H"], ""),
     (["root"], "0000000000000000000000000000000000000000000000000000000000000000\n")] = true := by decide +kernel

/-- README.md:174-183. -/
theorem readme_proof : session (fun _ => Dir.fresh)
    [(["insert", "foo", "deadbeef", "-H"], ""),
     (["insert", "bar", "01020304", "-H"], ""),
     (["root"], "497b751637ff244ab969a965f8d9dc7623f18d649d012276dfb317b0e38b9bec\n"),
     (["prove", "foo", "-H"], "03c00100800280a6386fa1781a92e3905f718d4e0ea0d757abe962eefdd52a23d2ad6e1409fd8a0400deadbeef\n"),
     (["verify", "foo", "-H", "03c00100800280a6386fa1781a92e3905f718d4e0ea0d757abe962eefdd52a23d2ad6e1409fd8a0400deadbeef", "--root",
       "497b751637ff244ab969a965f8d9dc7623f18d649d012276dfb317b0e38b9bec"], "deadbeef\n")] = true := by decide +kernel

end Urkel
