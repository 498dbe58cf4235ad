"""Writes lean/Verif.lean: imports of every module under lean/Verif."""
import glob, os
root = os.path.dirname(os.path.dirname(os.path.abspath(__file__))) + "/lean/"
order = {"Model": 0, "Spec": 1, "Lemmas": 2, "Props": 3}
mods = sorted((f[len(root):-5].replace("/", ".") for f in glob.glob(root + "Verif/**/*.lean", recursive=True)),
              key=lambda m: (order[m.split(".")[1]], m))
open(root + "Verif.lean", "w").write("".join(f"import {m}\n" for m in mods))
