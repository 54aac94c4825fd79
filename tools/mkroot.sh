#!/bin/sh
# regenerate lean/Verif.lean from the property files
cd /verif/lean && ls Verif/Props/*.lean | sed 's#/#.#g; s#\.lean$##; s#^#import #' > Verif.lean
